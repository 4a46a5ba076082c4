import Verif.Props.JsonTextRaises
/-!
# The texts of JSON

The grammar of JSON as a relation between a text and what it says, beside the reader: `readText` accepts exactly the texts of the grammar, and returns what they say.
-/

namespace Verif.JsonText
open Verif.Py Verif.Value Verif.Schema Verif.Json

/-! ## Specification -/

/-- a hexadecimal digit -/
def HexIs (c : Char) (n : Nat) : Prop := "0123456789abcdef".toList[n]? = some c ∨ "0123456789ABCDEF".toList[n]? = some c

/-- four hexadecimal digits -/
def HexNum (t : List Char) (n : Nat) : Prop := ∃ a b c d w x y z, t = [a, b, c, d] ∧ HexIs a w ∧ HexIs b x ∧ HexIs c y ∧ HexIs d z ∧ n = ((w * 16 + x) * 16 + y) * 16 + z

/-- how a character may be written within quotes -/
inductive Piece : List Char → Char → Prop
  | plain {c : Char} (h : ' ' ≤ c) (h1 : c ≠ '"') (h2 : c ≠ '\\') : Piece [c] c
  | quote : Piece ['\\', '"'] '"'
  | backslash : Piece ['\\', '\\'] '\\'
  | slash : Piece ['\\', '/'] '/'
  | b : Piece ['\\', 'b'] '\x08'
  | f : Piece ['\\', 'f'] '\x0c'
  | n : Piece ['\\', 'n'] '\n'
  | r : Piece ['\\', 'r'] '\r'
  | t : Piece ['\\', 't'] '\t'
  | code {h : List Char} {c : Char} (hh : HexNum h c.toNat) : Piece ('\\' :: 'u' :: h) c
  | pair {h k : List Char} {n m : Nat} {c : Char} (hh : HexNum h n) (hk : HexNum k m) (hn : 0xd800 ≤ n ∧ n ≤ 0xdbff) (hm : 0xdc00 ≤ m ∧ m ≤ 0xdfff)
      (hc : c.toNat = 0x10000 + (n - 0xd800) * 1024 + (m - 0xdc00)) : Piece ('\\' :: 'u' :: (h ++ '\\' :: 'u' :: k)) c

/-- several characters -/
inductive Pieces : List Char → List Char → Prop
  | nil : Pieces [] []
  | cons {t u s : List Char} {c : Char} (h : Piece t c) (hs : Pieces u s) : Pieces (t ++ u) (c :: s)

/-- a string in quotes -/
def Quoted (q : List Char) (s : String) : Prop := ∃ u, q = '"' :: (u ++ ['"']) ∧ Pieces u s.toList

/-- the digits of an integer, without leading zeros -/
def Numeral (i : List Char) : Prop := i = ['0'] ∨ Digits i ∧ i.head? ≠ some '0'

/-- what the digits say -/
def numeral (i : List Char) : Nat := i.foldl (fun n d => 10 * n + (d.toNat - 48)) 0

/-- a number, as an integer or float -/
inductive Number (F : Floats) : List Char → V → Prop
  | nat {i : List Char} (h : Numeral i) : Number F i (.int (numeral i))
  | neg {i : List Char} (h : Numeral i) : Number F ('-' :: i) (.int (-(numeral i)))
  | float {t : List Char} (h : IsFloat t) : Number F t (.float (F.read t))

/-- the dictionary made of these pairs: each key once, in the order of their first occurrences, with the last value given -/
def IsDict (ps d : List (String × V)) : Prop :=
  d.map Prod.fst = (ps.map Prod.fst).eraseDups ∧ ∀ k v, (k, v) ∈ d → ∃ a b, ps = a ++ (k, v) :: b ∧ k ∉ b.map Prod.fst

section
variable {σ : Type} (F : Floats) (hook : List (String × V) → σ → Except PyErr (V × σ))

mutual
/-- `Says t s v s'`: the text `t` is a value of JSON; with the hook called on its dictionaries, inner ones first, it is `v`, the state of the hook going from `s` to `s'` -/
inductive Says : List Char → σ → V → σ → Prop
  | null {s : σ} : Says ['n', 'u', 'l', 'l'] s .none s
  | true {s : σ} : Says ['t', 'r', 'u', 'e'] s (.bool true) s
  | false {s : σ} : Says ['f', 'a', 'l', 's', 'e'] s (.bool false) s
  | number {t : List Char} {v : V} {s : σ} (h : Number F t v) : Says t s v s
  | string {t : List Char} {x : String} {s : σ} (h : Quoted t x) : Says t s (.str x) s
  | emptyList {w : List Char} {s : σ} (hw : White w) : Says ('[' :: (w ++ [']'])) s (.list []) s
  | list {w t : List Char} {s s' : σ} {vs : List V} (hw : White w) (h : SayItems t s vs s') : Says ('[' :: (w ++ (t ++ [']']))) s (.list vs) s'
  | emptyDict {w : List Char} {s s' : σ} {v : V} (hw : White w) (hh : hook [] s = .ok (v, s')) : Says ('{' :: (w ++ ['}'])) s v s'
  | dict {w t : List Char} {s s' s'' : σ} {ps d : List (String × V)} {v : V} (hw : White w) (h : SayPairs t s ps s') (hd : IsDict ps d) (hh : hook d s' = .ok (v, s'')) :
      Says ('{' :: (w ++ (t ++ ['}']))) s v s''
/-- one or more values with commas between -/
inductive SayItems : List Char → σ → List V → σ → Prop
  | last {t w : List Char} {s s' : σ} {v : V} (h : Says t s v s') (hw : White w) : SayItems (t ++ w) s [v] s'
  | more {t w w' u : List Char} {s s' s'' : σ} {v : V} {vs : List V} (h : Says t s v s') (hw : White w) (hw' : White w') (hs : SayItems u s' vs s'') :
      SayItems (t ++ (w ++ ',' :: (w' ++ u))) s (v :: vs) s''
/-- one or more pairs with commas between -/
inductive SayPairs : List Char → σ → List (String × V) → σ → Prop
  | last {q a b t w : List Char} {k : String} {s s' : σ} {v : V} (hq : Quoted q k) (ha : White a) (hb : White b) (h : Says t s v s') (hw : White w) :
      SayPairs (q ++ (a ++ ':' :: (b ++ (t ++ w)))) s [(k, v)] s'
  | more {q a b t w w' u : List Char} {k : String} {s s' s'' : σ} {v : V} {ps : List (String × V)} (hq : Quoted q k) (ha : White a) (hb : White b) (h : Says t s v s') (hw : White w)
      (hw' : White w') (hs : SayPairs u s' ps s'') : SayPairs (q ++ (a ++ ':' :: (b ++ (t ++ (w ++ ',' :: (w' ++ u)))))) s ((k, v) :: ps) s''
end
end

/-! ## Strings -/

theorem hexVal_iff (c : Char) (n : Nat) : hexVal c = some n ↔ HexIs c n := by
  constructor
  · intro h
    have key : ∀ k < 128, ∀ n < 16, hexVal (Char.ofNat k) = some n → "0123456789abcdef".toList[n]? = some (Char.ofNat k) ∨ "0123456789ABCDEF".toList[n]? = some (Char.ofNat k) := by decide +kernel
    have hc : c.toNat < 128 ∧ n < 16 := by
      unfold hexVal at h
      simp only [Char.le_def, UInt32.le_iff_toNat_le] at h
      simp only [Char.toNat] at h ⊢
      split at h
      · rename_i h1; simp only [Option.some.injEq] at h; have h2 := h1.2; have h3 := h1.1; change _ ≤ 57 at h2; change 48 ≤ _ at h3; omega
      · split at h
        · rename_i h1; simp only [Option.some.injEq] at h; have h2 := h1.2; have h3 := h1.1; change _ ≤ 102 at h2; change 97 ≤ _ at h3; omega
        · split at h
          · rename_i h1; simp only [Option.some.injEq] at h; have h2 := h1.2; have h3 := h1.1; change _ ≤ 70 at h2; change 65 ≤ _ at h3; omega
          · cases h
    have := key c.toNat hc.1 n hc.2
    rw [Char.ofNat_toNat] at this
    exact this h
  · intro h
    have hn : n < 16 := by
      rcases h with h | h
      · have := (List.getElem?_eq_some_iff.1 h).1; exact this
      · have := (List.getElem?_eq_some_iff.1 h).1; exact this
    have key : ∀ n < 16, ("0123456789abcdef".toList[n]?).bind hexVal = some n ∧ ("0123456789ABCDEF".toList[n]?).bind hexVal = some n := by decide +kernel
    rcases h with h | h
    · have := (key n hn).1; rw [h] at this; exact this
    · have := (key n hn).2; rw [h] at this; exact this

theorem hex4_iff (cs r : List Char) (n : Nat) : hex4 cs = some (n, r) ↔ ∃ t, cs = t ++ r ∧ HexNum t n := by
  constructor
  · intro h
    unfold hex4 at h
    split at h
    · split at h
      · rename_i a b c d r' _ _ _ _ w x y z hw hx hy hz
        simp only [Option.some.injEq, Prod.mk.injEq] at h
        obtain ⟨rfl, rfl⟩ := h
        exact ⟨[a, b, c, d], rfl, a, b, c, d, w, x, y, z, rfl, (hexVal_iff _ _).1 hw, (hexVal_iff _ _).1 hx, (hexVal_iff _ _).1 hy, (hexVal_iff _ _).1 hz, by omega⟩
      · cases h
    · cases h
  · rintro ⟨t, rfl, a, b, c, d, w, x, y, z, rfl, hw, hx, hy, hz, rfl⟩
    simp only [List.cons_append, List.nil_append, hex4, (hexVal_iff _ _).2 hw, (hexVal_iff _ _).2 hx, (hexVal_iff _ _).2 hy, (hexVal_iff _ _).2 hz]
    congr 2
    omega

theorem HexIs.lt {c : Char} {n : Nat} (h : HexIs c n) : n < 16 := by
  rcases h with h | h
  · exact (List.getElem?_eq_some_iff.1 h).1
  · exact (List.getElem?_eq_some_iff.1 h).1

theorem HexNum.lt {t : List Char} {n : Nat} (h : HexNum t n) : n < 65536 := by
  obtain ⟨_, _, _, _, w, x, y, z, _, hw, hx, hy, hz, rfl⟩ := h
  have := hw.lt; have := hx.lt; have := hy.lt; have := hz.lt
  omega

theorem toNat_ofNat' {n : Nat} (h : n < 0xd800 ∨ 0xdfff < n ∧ n < 0x110000) : (Char.ofNat n).toNat = n := by
  have : n.isValidChar := by
    rcases h with h | h
    · exact .inl (by omega)
    · exact .inr ⟨by omega, by omega⟩
  simp [Char.ofNat, this, Char.toNat, Char.ofNatAux]

theorem char_valid (c : Char) : c.toNat < 0xd800 ∨ 0xdfff < c.toNat ∧ c.toNat < 0x110000 := by
  rcases c.valid with h | h
  · exact .inl h
  · exact .inr h

theorem secondHalf_iff {n : Nat} (hn : 0xd800 ≤ n ∧ n ≤ 0xdbff) (cs r : List Char) (c : Char) :
    secondHalf n cs = .ok (c, r) ↔ ∃ k m, cs = '\\' :: 'u' :: (k ++ r) ∧ HexNum k m ∧ (0xdc00 ≤ m ∧ m ≤ 0xdfff) ∧ c.toNat = 0x10000 + (n - 0xd800) * 1024 + (m - 0xdc00) := by
  constructor
  · intro h
    unfold secondHalf at h
    split at h
    · split at h
      · cases h
      · rename_i r0 k r' hk
        split at h
        · rename_i hm
          simp only [Except.ok.injEq, Prod.mk.injEq] at h
          obtain ⟨rfl, rfl⟩ := h
          obtain ⟨t, rfl, ht⟩ := (hex4_iff _ _ _).1 hk
          exact ⟨t, k, rfl, ht, hm, toNat_ofNat' (by omega)⟩
        · cases h
    · cases h
  · rintro ⟨k, m, rfl, hk, hm, hc⟩
    have := (hex4_iff (k ++ r) r m).2 ⟨k, rfl, hk⟩
    simp only [secondHalf, this, if_pos hm, Except.ok.injEq, Prod.mk.injEq, and_true]
    rw [← hc, Char.ofNat_toNat]

theorem unit_sound {cs r : List Char} {c : Char} (h : unit cs = .ok (c, r)) (hq : cs.head? ≠ some '"') : ∃ t, cs = t ++ r ∧ Piece t c := by
  unfold unit at h
  split at h
  · cases h
  · cases h; exact ⟨_, rfl, .quote⟩
  · cases h; exact ⟨_, rfl, .backslash⟩
  · cases h; exact ⟨_, rfl, .slash⟩
  · cases h; exact ⟨_, rfl, .b⟩
  · cases h; exact ⟨_, rfl, .f⟩
  · cases h; exact ⟨_, rfl, .n⟩
  · cases h; exact ⟨_, rfl, .r⟩
  · cases h; exact ⟨_, rfl, .t⟩
  · split at h
    · cases h
    · rename_i r0 n r' hh
      obtain ⟨t, rfl, ht⟩ := (hex4_iff _ _ _).1 hh
      split at h
      · rename_i hn
        obtain ⟨k, m, rfl, hk, hm, hc⟩ := (secondHalf_iff hn _ _ _).1 h
        exact ⟨'\\' :: 'u' :: (t ++ '\\' :: 'u' :: k), by simp, .pair ht hk hn hm hc⟩
      · split at h
        · cases h
        · rename_i h1 h2
          simp only [Except.ok.injEq, Prod.mk.injEq] at h
          obtain ⟨rfl, rfl⟩ := h
          have hlt := ht.lt
          refine ⟨'\\' :: 'u' :: t, rfl, .code ?_⟩
          rw [toNat_ofNat' (by omega)]
          exact ht
  · cases h
  · rename_i c' r' hne _ _ _ _ _ _ _ _ _
    split at h
    · cases h
    · rename_i hlt
      simp only [Except.ok.injEq, Prod.mk.injEq] at h
      obtain ⟨rfl, rfl⟩ := h
      refine ⟨[c'], rfl, .plain (Char.not_lt.1 hlt) (by simpa using hq) ?_⟩
      rintro rfl
      simp_all

theorem unit_complete {t r : List Char} {c : Char} (h : Piece t c) : unit (t ++ r) = .ok (c, r) ∧ ∃ d u, t = d :: u ∧ d ≠ '"' := by
  cases h with
  | plain h h1 h2 => exact ⟨unit_raw h2 (Char.not_lt.2 h) r, _, _, rfl, h1⟩
  | quote | backslash | slash | b | f | n | r | t => exact ⟨rfl, _, _, rfl, by decide⟩
  | @code h _ hh =>
    refine ⟨?_, _, _, rfl, by decide⟩
    have h1 := (hex4_iff (h ++ r) r _).2 ⟨h, rfl, hh⟩
    have h2 := char_valid c
    simp only [List.cons_append, unit, h1]
    rw [if_neg (by omega), if_neg (by omega), Char.ofNat_toNat]
  | @pair h k n m _ hh hk hn hm hc =>
    refine ⟨?_, _, _, rfl, by decide⟩
    have h1 := (hex4_iff (h ++ ('\\' :: 'u' :: (k ++ r))) _ _).2 ⟨h, rfl, hh⟩
    have h2 := (secondHalf_iff hn ('\\' :: 'u' :: (k ++ r)) r c).2 ⟨k, m, rfl, hk, hm, hc⟩
    simp only [List.cons_append, List.append_assoc, unit, h1, if_pos hn, h2]

theorem scanString_sound : ∀ {n : Nat} {cs s r : List Char}, scanString n cs = .ok (s, r) → ∃ u, cs = u ++ '"' :: r ∧ Pieces u s
  | 0, _, _, _, h => by simp [scanString] at h
  | n + 1, cs, s, r, h => by
    by_cases hq : cs.head? = some '"'
    · obtain ⟨t, rfl⟩ : ∃ t, cs = '"' :: t := by cases cs <;> simp_all
      rw [scanString] at h
      cases h
      exact ⟨[], rfl, .nil⟩
    · rw [scanString_step hq] at h
      split at h
      · cases h
      · rename_i c r1 h1
        split at h
        · cases h
        · rename_i s1 r2 h2
          simp only [Except.ok.injEq, Prod.mk.injEq] at h
          obtain ⟨rfl, rfl⟩ := h
          obtain ⟨t, rfl, ht⟩ := unit_sound h1 hq
          obtain ⟨u, rfl, hu⟩ := scanString_sound h2
          exact ⟨t ++ u, by simp, .cons ht hu⟩

theorem scanString_complete {u s : List Char} (h : Pieces u s) (r : List Char) : ∀ n, u.length < n → scanString n (u ++ '"' :: r) = .ok (s, r) := by
  induction h with
  | nil => intro n hn; obtain ⟨n, rfl⟩ : ∃ k, n = k + 1 := ⟨n - 1, by simp at hn; omega⟩; rfl
  | @cons t u s c ht hu ih =>
    intro n hn
    simp only [List.length_append] at hn
    obtain ⟨h1, d, v, rfl, hd⟩ := unit_complete (r := u ++ '"' :: r) ht
    obtain ⟨n, rfl⟩ : ∃ k, n = k + 1 := ⟨n - 1, by omega⟩
    simp only [List.length_cons] at hn
    rw [List.append_assoc, scanString_step (by simpa using hd), h1]
    simp only [ih n (by omega)]

/-! ## Numbers -/

theorem numeral_eq (i : List Char) : Nat.ofDigitChars 10 i 0 = numeral i := by
  unfold Nat.ofDigitChars numeral
  rfl

theorem takeWhile_digits' (r : List Char) : ∀ c ∈ r.takeWhile Char.isDigit, c.isDigit = true := fun c hc => by
  have := List.all_takeWhile (p := Char.isDigit) (l := r)
  rw [List.all_eq_true] at this
  exact this c hc

theorem intPart_sound {cs i r : List Char} (h : intPart cs = some (i, r)) : cs = i ++ r ∧ Numeral i := by
  unfold intPart at h
  split at h
  · cases h
  · rename_i c t
    split at h
    · rename_i h0
      simp only [Option.some.injEq, Prod.mk.injEq] at h
      obtain ⟨rfl, rfl⟩ := h
      subst h0
      exact ⟨rfl, .inl rfl⟩
    · rename_i h0
      split at h
      · rename_i hd
        simp only [Option.some.injEq, Prod.mk.injEq] at h
        obtain ⟨rfl, rfl⟩ := h
        refine ⟨by simp [List.takeWhile_append_dropWhile], .inr ⟨⟨by simp, ?_⟩, by simpa using h0⟩⟩
        intro d hd'
        rcases List.mem_cons.1 hd' with rfl | h'
        · exact hd
        · exact takeWhile_digits' t d h'
      · cases h

theorem fraction_sound (cs : List Char) : cs = (fraction cs).1 ++ (fraction cs).2 ∧ ((fraction cs).1 = [] ∨ ∃ ds, Digits ds ∧ (fraction cs).1 = '.' :: ds) := by
  unfold fraction
  split
  · rename_i r
    split
    · exact ⟨rfl, .inl rfl⟩
    · rename_i h
      exact ⟨by simp [List.takeWhile_append_dropWhile], .inr ⟨_, ⟨h, takeWhile_digits' r⟩, rfl⟩⟩
  · exact ⟨rfl, .inl rfl⟩

theorem sign_sound (r : List Char) : r = (sign r).1 ++ (sign r).2 ∧ ((sign r).1 = [] ∨ (sign r).1 = ['-'] ∨ (sign r).1 = ['+']) := by
  unfold sign
  split
  · split
    · rename_i h; rcases h with rfl | rfl <;> simp
    · simp
  · simp

theorem exponent_sound (cs : List Char) : cs = (exponent cs).1 ++ (exponent cs).2 ∧
    ((exponent cs).1 = [] ∨ ∃ c g ds, (c = 'e' ∨ c = 'E') ∧ (g = [] ∨ g = ['-'] ∨ g = ['+']) ∧ Digits ds ∧ (exponent cs).1 = c :: (g ++ ds)) := by
  unfold exponent
  split
  · rename_i c r
    split
    · rename_i hc
      split
      · exact ⟨rfl, .inl rfl⟩
      · rename_i h
        obtain ⟨h1, h2⟩ := sign_sound r
        refine ⟨?_, .inr ⟨c, _, _, hc, h2, ⟨h, takeWhile_digits' _⟩, rfl⟩⟩
        simp only [List.cons_append, List.append_assoc, List.takeWhile_append_dropWhile]
        rw [← h1]
    · exact ⟨rfl, .inl rfl⟩
  · exact ⟨rfl, .inl rfl⟩

theorem number_sound {F : Floats} {cs r : List Char} {v : V} (h : number F cs = some (v, r)) : ∃ t, cs = t ++ r ∧ Number F t v := by
  have core : ∀ {cs' i r' m : List Char}, intPart cs' = some (i, r') → (m = [] ∨ m = ['-']) → r = (exponent (fraction r').2).2 →
      ¬ ((fraction r').1 = [] ∧ (exponent (fraction r').2).1 = []) →
      IsFloat (m ++ (i ++ ((fraction r').1 ++ (exponent (fraction r').2).1))) ∧ m ++ cs' = m ++ (i ++ ((fraction r').1 ++ (exponent (fraction r').2).1)) ++ r := by
    intro cs' i r' m hi hm hr hne
    obtain ⟨h1, h2⟩ := intPart_sound hi
    obtain ⟨h3, h4⟩ := fraction_sound r'
    obtain ⟨h5, h6⟩ := exponent_sound (fraction r').2
    refine ⟨⟨m, i, _, _, rfl, hm, h2, h4, h6, hne⟩, ?_⟩
    rw [h1, hr]
    simp only [List.append_assoc]
    rw [← h5, ← h3]
  by_cases hm : cs.head? = some '-'
  · obtain ⟨t, rfl⟩ : ∃ t, cs = '-' :: t := by cases cs <;> simp_all
    rw [number_neg] at h
    split at h
    · cases h
    · rename_i i r' hi
      split at h
      · rename_i hfe
        simp only [Option.some.injEq, Prod.mk.injEq] at h
        obtain ⟨rfl, rfl⟩ := h
        obtain ⟨h1, h2⟩ := intPart_sound hi
        obtain ⟨h3, _⟩ := fraction_sound r'
        obtain ⟨h5, _⟩ := exponent_sound (fraction r').2
        rw [hfe.1] at h3
        rw [hfe.2] at h5
        refine ⟨'-' :: i, ?_, ?_⟩
        · rw [List.cons_append, h1]; congr 2; simp only [List.nil_append] at h3 h5; rw [← h5, ← h3]
        · rw [numeral_eq]; exact .neg h2
      · rename_i hfe
        simp only [Option.some.injEq, Prod.mk.injEq] at h
        obtain ⟨rfl, hr⟩ := h
        obtain ⟨h1, h2⟩ := core (m := ['-']) hi (.inr rfl) hr.symm hfe
        exact ⟨_, h2, .float h1⟩
  · rw [number_pos F hm] at h
    split at h
    · cases h
    · rename_i i r' hi
      split at h
      · rename_i hfe
        simp only [Option.some.injEq, Prod.mk.injEq] at h
        obtain ⟨rfl, rfl⟩ := h
        obtain ⟨h1, h2⟩ := intPart_sound hi
        obtain ⟨h3, _⟩ := fraction_sound r'
        obtain ⟨h5, _⟩ := exponent_sound (fraction r').2
        rw [hfe.1] at h3
        rw [hfe.2] at h5
        refine ⟨i, ?_, ?_⟩
        · rw [h1]; congr 1; simp only [List.nil_append] at h3 h5; rw [← h5, ← h3]
        · rw [numeral_eq]; exact .nat h2
      · rename_i hfe
        simp only [Option.some.injEq, Prod.mk.injEq] at h
        obtain ⟨rfl, hr⟩ := h
        obtain ⟨h1, h2⟩ := core (m := []) hi (.inl rfl) hr.symm hfe
        exact ⟨_, h2, .float h1⟩

theorem number_complete {F : Floats} {t r : List Char} {v : V} (h : Number F t v) (hr : Ends r) :
    number F (t ++ r) = some (v, r) ∧ ∃ c, t.head? = some c ∧ (c = '-' ∨ c.isDigit = true) := by
  have hf : fraction r = ([], r) := fraction_none (fun h => (hr _ h).2.1 rfl)
  have he : exponent r = ([], r) := exponent_none (fun c hc => (hr c hc).2.2)
  cases h with
  | nat h =>
    have hp := intPart_digits (r := r) h (fun c hc => (hr c hc).1)
    obtain ⟨c, u, e, hc⟩ := lead_head (r := r) h
    obtain ⟨c', u', e', hc'⟩ := lead_head (r := []) h
    refine ⟨?_, c', by rw [List.append_nil] at e'; rw [e']; rfl, .inr hc'⟩
    rw [number_pos, hp]
    · simp only [hf, he, and_self, if_true, numeral_eq]
    · rw [e]
      simp only [List.head?_cons, ne_eq, Option.some.injEq]
      exact digit_ne hc (by decide)
  | neg h =>
    have hp := intPart_digits (r := r) h (fun c hc => (hr c hc).1)
    refine ⟨?_, '-', rfl, .inl rfl⟩
    rw [List.cons_append, number_neg, hp]
    simp only [hf, he, and_self, if_true, numeral_eq]
  | float h =>
    have hF : Faithful ⟨fun _ => t, F.read⟩ (F.read t) := ⟨h, rfl⟩
    have h1 := number_float hF hr
    obtain ⟨c, u, e, hc⟩ := number_head hF
    refine ⟨?_, c, by simp only at e; rw [e]; rfl, hc⟩
    exact h1

/-! ## Dictionaries -/

theorem setAll_append (d l l' : List (String × V)) : Dict.setAll d (l ++ l') = Dict.setAll (Dict.setAll d l) l' := by
  induction l generalizing d with
  | nil => rfl
  | cons p l ih => simp only [List.cons_append, Dict.setAll, ih]

theorem mem_set {d : List (String × V)} (hd : Dict.WF d) {k k' : String} {v v' : V} (h : (k', v') ∈ Dict.set d k v) : (k' = k ∧ v' = v) ∨ (k' ≠ k ∧ (k', v') ∈ d) := by
  have h1 := Dict.get?_of_mem (Dict.WF_set hd k v) h
  rw [Dict.get?_set] at h1
  split at h1
  · rename_i e; cases h1; exact .inl ⟨by simp_all, rfl⟩
  · rename_i e; exact .inr ⟨fun e' => e (by simp_all), Dict.mem_of_get? h1⟩

theorem snoc_induction {α : Type} {p : List α → Prop} (nil : p []) (snoc : ∀ l a, p l → p (l ++ [a])) (l : List α) : p l := by
  rw [← List.reverse_reverse l]
  induction l.reverse with
  | nil => exact nil
  | cons a l ih => rw [List.reverse_cons]; exact snoc _ _ ih

theorem isDict_setAll (ps : List (String × V)) : IsDict ps (Dict.setAll [] ps) := by
  induction ps using snoc_induction with
  | nil => exact ⟨rfl, fun k v h => by simp [Dict.setAll] at h⟩
  | snoc ps p ih =>
    obtain ⟨k, v⟩ := p
    obtain ⟨h1, h2⟩ := ih
    rw [setAll_append]
    simp only [Dict.setAll]
    have hk := Dict.keys_set (Dict.setAll [] ps) k v
    have h1' : Dict.keys (Dict.setAll [] ps) = (ps.map Prod.fst).eraseDups := h1
    refine ⟨?_, ?_⟩
    · change Dict.keys _ = _
      rw [hk, List.map_append, List.eraseDups_append]
      simp only [h1']
      simp only [List.mem_eraseDups, List.map_cons, List.map_nil, List.removeAll, List.filter_cons, List.filter_nil]
      by_cases hm : k ∈ ps.map Prod.fst
      · simp [hm]
      · simp [hm, List.eraseDups_cons]
    · intro k' v' h
      rcases mem_set (Dict.WF_setAll_nil ps) h with ⟨rfl, rfl⟩ | ⟨hne, hmem⟩
      · exact ⟨ps, [], rfl, by simp⟩
      · obtain ⟨a, b, rfl, hb⟩ := h2 _ _ hmem
        refine ⟨a, b ++ [(k, v)], by simp, ?_⟩
        simp only [List.map_append, List.mem_append, not_or]
        exact ⟨hb, by simpa using hne⟩

theorem last_unique {ps a b a' b' : List (String × V)} {k : String} {v v' : V} (h : ps = a ++ (k, v) :: b) (h' : ps = a' ++ (k, v') :: b') (hb : k ∉ b.map Prod.fst) (hb' : k ∉ b'.map Prod.fst) : v = v' := by
  rw [h, List.append_eq_append_iff] at h'
  rcases h' with ⟨c, e1, e2⟩ | ⟨c, e1, e2⟩
  · cases c with
    | nil => simp only [List.nil_append, List.cons.injEq, Prod.mk.injEq] at e2; exact e2.1.2
    | cons x c => simp only [List.cons_append, List.cons.injEq] at e2; exact absurd (by rw [e2.2]; simp) hb
  · cases c with
    | nil => simp only [List.nil_append, List.cons.injEq, Prod.mk.injEq] at e2; exact e2.1.2.symm
    | cons x c => simp only [List.cons_append, List.cons.injEq] at e2; exact absurd (by rw [e2.2]; simp) hb'

theorem isDict_unique {ps d d' : List (String × V)} (h : IsDict ps d) (h' : IsDict ps d') : d = d' := by
  have hl : d.map Prod.fst = d'.map Prod.fst := h.1.trans h'.1.symm
  have key : ∀ (l l' : List (String × V)), (∀ p ∈ l, p ∈ d) → (∀ p ∈ l', p ∈ d') → l.map Prod.fst = l'.map Prod.fst → l = l' := by
    intro l
    induction l with
    | nil => intro l' _ _ e; cases l' with
      | nil => rfl
      | cons => simp at e
    | cons p l ih =>
      intro l' h1 h2 e
      cases l' with
      | nil => simp at e
      | cons p' l' =>
        simp only [List.map_cons, List.cons.injEq] at e
        obtain ⟨k, v⟩ := p
        obtain ⟨k', v'⟩ := p'
        obtain ⟨rfl, e⟩ := e
        obtain ⟨a, b, e1, hb⟩ := h.2 k v (h1 _ (by simp))
        obtain ⟨a', b', e2, hb'⟩ := h'.2 k v' (h2 _ (by simp))
        rw [last_unique e1 e2 hb hb', ih l' (fun q hq => h1 q (by simp [hq])) (fun q hq => h2 q (by simp [hq])) e]
  exact key d d' (fun _ h => h) (fun _ h => h) hl

/-! ## Values -/

theorem skip_sound (r : List Char) : ∃ w, White w ∧ r = w ++ skip r := by
  refine ⟨r.takeWhile isWhite, fun c hc => ?_, (List.takeWhile_append_dropWhile).symm⟩
  have := List.all_takeWhile (p := isWhite) (l := r)
  rw [List.all_eq_true] at this
  exact isWhite_iff.1 (this c hc)

theorem word_sound {w cs r : List Char} (h : word w cs = some r) : cs = w ++ r := by
  unfold word at h
  split at h
  · rename_i hp
    cases h
    obtain ⟨t, rfl⟩ := List.isPrefixOf_iff_prefix.1 hp
    simp
  · cases h

section
variable {σ : Type} {F : Floats} {hook : List (String × V) → σ → Except PyErr (V × σ)}

theorem atom_sound {cs r : List Char} {s s' : σ} {v : V} (h : atom F cs s = .ok (v, r, s')) : ∃ t, cs = t ++ r ∧ Says F hook t s v s' := by
  unfold atom at h
  split at h
  · rename_i hw; cases h; exact ⟨_, word_sound hw, .null⟩
  split at h
  · rename_i hw; cases h; exact ⟨_, word_sound hw, .true⟩
  split at h
  · rename_i hw; cases h; exact ⟨_, word_sound hw, .false⟩
  split at h
  · rename_i hw; cases h
    obtain ⟨t, e, ht⟩ := number_sound hw
    exact ⟨t, e, .number ht⟩
  · split at h <;> cases h

theorem close_sound {ps : List (String × V)} {r r' : List Char} {s s' : σ} {v : V} (h : close hook ps r s = .ok (v, r', s')) : r' = r ∧ hook (Dict.setAll [] ps) s = .ok (v, s') := by
  unfold close at h
  split at h
  · cases h
  · rename_i hh
    simp only [Except.ok.injEq, Prod.mk.injEq] at h
    obtain ⟨rfl, rfl, rfl⟩ := h
    exact ⟨rfl, hh⟩

theorem sound (n : Nat) : (∀ cs s v r s', value F hook n cs s = .ok (v, r, s') → ∃ t, cs = t ++ r ∧ Says F hook t s v s') ∧
    (∀ cs s vs r s', elements F hook n cs s = .ok (vs, r, s') → ∃ t, cs = t ++ ']' :: r ∧ SayItems F hook t s vs s') ∧
    (∀ cs s ps r s', members F hook n cs s = .ok (ps, r, s') → ∃ t, '"' :: cs = t ++ '}' :: r ∧ SayPairs F hook t s ps s') := by
  induction n with
  | zero => refine ⟨?_, ?_, ?_⟩ <;> (intro cs s v r s' h; simp [value, elements, members] at h)
  | succ n ih =>
    obtain ⟨ih1, ih2, ih3⟩ := ih
    refine ⟨?_, ?_, ?_⟩
    · intro cs s v r s' h
      cases cs with
      | nil => simp [value] at h
      | cons c t =>
        obtain ⟨w, hw, ht⟩ := skip_sound t
        rw [value] at h
        split at h
        · rename_i hc
          subst hc
          split at h
          · cases h
          · rename_i x r' hs
            cases h
            obtain ⟨u, rfl, hu⟩ := scanString_sound hs
            exact ⟨'"' :: (u ++ ['"']), by simp, .string ⟨u, rfl, by simpa using hu⟩⟩
        split at h
        · rename_i hc
          subst hc
          split at h
          · rename_i e
            cases h
            rw [e] at ht
            exact ⟨'[' :: (w ++ [']']), by rw [ht]; simp, .emptyList hw⟩
          · split at h
            · cases h
            · rename_i he
              cases h
              obtain ⟨u, e, hu⟩ := ih2 _ _ _ _ _ he
              exact ⟨'[' :: (w ++ (u ++ [']'])), by rw [ht, e]; simp, .list hw hu⟩
        split at h
        · rename_i hc
          subst hc
          split at h
          · rename_i e
            obtain ⟨rfl, hh⟩ := close_sound h
            rw [e] at ht
            exact ⟨'{' :: (w ++ ['}']), by rw [ht]; simp, .emptyDict hw hh⟩
          · rename_i e
            split at h
            · cases h
            · rename_i hm
              obtain ⟨rfl, hh⟩ := close_sound h
              obtain ⟨u, e', hu⟩ := ih3 _ _ _ _ _ hm
              exact ⟨'{' :: (w ++ (u ++ ['}'])), by rw [ht, e, e']; simp, .dict hw hu (isDict_setAll _) hh⟩
          · cases h
        · exact atom_sound h
    · intro cs s vs r s' h
      rw [elements] at h
      split at h
      · cases h
      · rename_i v r1 s1 hv
        obtain ⟨t, rfl, ht⟩ := ih1 _ _ _ _ _ hv
        obtain ⟨w, hw, hr⟩ := skip_sound r1
        split at h
        · rename_i e
          cases h
          rw [e] at hr
          exact ⟨t ++ w, by rw [hr]; simp, .last ht hw⟩
        · rename_i r2 e
          obtain ⟨w', hw', hr2⟩ := skip_sound r2
          split at h
          · cases h
          · rename_i he
            cases h
            obtain ⟨u, e', hu⟩ := ih2 _ _ _ _ _ he
            refine ⟨t ++ (w ++ ',' :: (w' ++ u)), ?_, .more ht hw hw' hu⟩
            rw [hr, e, hr2, e']; simp
        · cases h
    · intro cs s ps r s' h
      rw [members] at h
      split at h
      · cases h
      · rename_i k r1 hk
        obtain ⟨u, rfl, hu⟩ := scanString_sound hk
        have hq : Quoted ('"' :: (u ++ ['"'])) (String.ofList k) := ⟨u, rfl, by simpa using hu⟩
        obtain ⟨a, ha, hr1⟩ := skip_sound r1
        split at h
        · rename_i r2 e2
          obtain ⟨b, hb, hr2⟩ := skip_sound r2
          split at h
          · cases h
          · rename_i v r3 s3 hv
            obtain ⟨t, e3, ht⟩ := ih1 _ _ _ _ _ hv
            obtain ⟨w, hw, hr3⟩ := skip_sound r3
            split at h
            · rename_i e4
              cases h
              refine ⟨'"' :: (u ++ ['"']) ++ (a ++ ':' :: (b ++ (t ++ w))), ?_, .last hq ha hb ht hw⟩
              rw [hr1, e2, hr2, e3, hr3, e4]; simp
            · rename_i r4 e4
              obtain ⟨w', hw', hr4⟩ := skip_sound r4
              split at h
              · rename_i e5
                split at h
                · cases h
                · rename_i hm
                  cases h
                  obtain ⟨x, e6, hx⟩ := ih3 _ _ _ _ _ hm
                  refine ⟨'"' :: (u ++ ['"']) ++ (a ++ ':' :: (b ++ (t ++ (w ++ ',' :: (w' ++ x))))), ?_, .more hq ha hb ht hw hw' hx⟩
                  rw [hr1, e2, hr2, e3, hr3, e4, hr4, e5, e6]; simp
              · cases h
            · cases h
        · cases h

/-- the first character of a value -/
theorem Says.head {t : List Char} {s s' : σ} {v : V} (h : Says F hook t s v s') : ∃ c u, t = c :: u ∧ Lead c := by
  cases h with
  | null | true | false => exact ⟨_, _, rfl, by simp [Lead]⟩
  | number h =>
    obtain ⟨_, c, hc, hd⟩ := number_complete h (r := []) (by simp [Ends])
    cases t with
    | nil => simp at hc
    | cons d t =>
      simp only [List.head?_cons, Option.some.injEq] at hc
      subst hc
      refine ⟨d, t, rfl, ?_⟩
      rcases hd with rfl | hd <;> simp [Lead, *]
  | string h => obtain ⟨u, rfl, _⟩ := h; exact ⟨_, _, rfl, by simp [Lead]⟩
  | emptyList | list | emptyDict | dict => exact ⟨_, _, rfl, by simp [Lead]⟩

theorem SayItems.head {t : List Char} {s s' : σ} {vs : List V} (h : SayItems F hook t s vs s') : ∃ c u, t = c :: u ∧ Lead c := by
  cases h with
  | last h _ | more h _ _ _ => obtain ⟨c, u, rfl, hc⟩ := h.head; exact ⟨c, _, rfl, hc⟩

theorem skip_lead {w t r : List Char} (hw : White w) (h : ∃ c u, t = c :: u ∧ Lead c) : skip (w ++ (t ++ r)) = t ++ r := by
  obtain ⟨c, u, rfl, hc⟩ := h
  rw [skip_white hw, List.cons_append, skip_solid hc.solid.1]

theorem skip_char {w r : List Char} {c : Char} (hw : White w) (hc : isWhite c = false) : skip (w ++ c :: r) = c :: r := by
  rw [skip_white hw, skip_solid hc]

theorem ends_white {w r : List Char} {c : Char} (hw : White w) (hc : c.isDigit = false ∧ c ≠ '.' ∧ c ≠ 'e' ∧ c ≠ 'E') : Ends (w ++ c :: r) :=
  white_ends hw (by intro d hd; simp only [List.head?_cons, Option.some.injEq] at hd; subst hd; exact hc)

mutual
theorem Says.complete : ∀ {t : List Char} {s s' : σ} {v : V}, Says F hook t s v s' → ∀ (r : List Char) (n : Nat), Ends r → 2 * t.length < n → value F hook n (t ++ r) s = .ok (v, r, s')
  | _, s, _, _, .null, r, n, hr, hn => by
    obtain ⟨n, rfl⟩ : ∃ k, n = k + 1 := ⟨n - 1, by omega⟩
    rw [List.cons_append, value_atom (by decide) (by decide) (by decide)]
    have := word_self ['n', 'u', 'l', 'l'] r
    simp only [List.cons_append] at this
    simp only [atom, List.cons_append, this]
  | _, s, _, _, .true, r, n, hr, hn => by
    obtain ⟨n, rfl⟩ : ∃ k, n = k + 1 := ⟨n - 1, by omega⟩
    rw [List.cons_append, value_atom (by decide) (by decide) (by decide)]
    have := word_self ['t', 'r', 'u', 'e'] r
    simp only [List.cons_append] at this
    have h1 : word ['n', 'u', 'l', 'l'] ('t' :: 'r' :: 'u' :: 'e' :: ([] ++ r)) = none := word_none (a := 'n') rfl (by simp)
    simp only [atom, List.cons_append, this, h1]
  | _, s, _, _, .false, r, n, hr, hn => by
    obtain ⟨n, rfl⟩ : ∃ k, n = k + 1 := ⟨n - 1, by omega⟩
    rw [List.cons_append, value_atom (by decide) (by decide) (by decide)]
    have := word_self ['f', 'a', 'l', 's', 'e'] r
    simp only [List.cons_append] at this
    have h1 : word ['n', 'u', 'l', 'l'] ('f' :: 'a' :: 'l' :: 's' :: 'e' :: ([] ++ r)) = none := word_none (a := 'n') rfl (by simp)
    have h2 : word ['t', 'r', 'u', 'e'] ('f' :: 'a' :: 'l' :: 's' :: 'e' :: ([] ++ r)) = none := word_none (a := 't') rfl (by simp)
    simp only [atom, List.cons_append, this, h1, h2]
  | _, s, _, _, .number h, r, n, hr, hn => by
    obtain ⟨h1, c, h2, h3⟩ := number_complete h hr
    exact value_number h2 h3 h1 n (by omega) s
  | _, s, _, _, .string (x := x) h, r, n, hr, hn => by
    obtain ⟨u, rfl, hu⟩ := h
    obtain ⟨n, rfl⟩ : ∃ k, n = k + 1 := ⟨n - 1, by omega⟩
    have := scanString_complete hu r ((u ++ '"' :: r).length + 1) (by simp only [List.length_append]; omega)
    rw [List.cons_append, value, if_pos rfl, List.append_assoc, List.cons_append, List.nil_append, this]
    simp
  | _, s, _, _, .emptyList (w := w) hw, r, n, hr, hn => by
    obtain ⟨n, rfl⟩ : ∃ k, n = k + 1 := ⟨n - 1, by omega⟩
    have := skip_char (r := r) (c := ']') hw (by decide)
    rw [List.cons_append, value, if_neg (by decide), if_pos rfl, List.append_assoc, List.cons_append, List.nil_append, this]
    rfl
  | _, s, _, _, .list (w := w) (t := t) hw h, r, n, hr, hn => by
    simp only [List.length_cons, List.length_append, List.length_nil] at hn
    obtain ⟨n, rfl⟩ : ∃ k, n = k + 1 := ⟨n - 1, by omega⟩
    have h1 := skip_lead (r := ']' :: r) hw h.head
    obtain ⟨c, u, e, hc⟩ := h.head
    have h2 := SayItems.complete h r n (by omega)
    rw [List.cons_append, value, if_neg (by decide), if_pos rfl, List.append_assoc, List.append_assoc, List.cons_append, List.nil_append, h1]
    split
    · rename_i e'
      rw [e] at e'
      simp only [List.cons_append, List.cons.injEq] at e'
      rw [e'.1] at hc
      exact absurd hc (by unfold Lead; decide)
    · rw [h2]
  | _, s, _, _, .emptyDict (w := w) hw hh, r, n, hr, hn => by
    obtain ⟨n, rfl⟩ : ∃ k, n = k + 1 := ⟨n - 1, by omega⟩
    have := skip_char (r := r) (c := '}') hw (by decide)
    rw [List.cons_append, value, if_neg (by decide), if_neg (by decide), if_pos rfl, List.append_assoc, List.cons_append, List.nil_append, this]
    simp only [close, Dict.setAll, hh]
  | _, s, _, _, .dict (w := w) (t := t) hw h hd hh, r, n, hr, hn => by
    simp only [List.length_cons, List.length_append, List.length_nil] at hn
    obtain ⟨n, rfl⟩ : ∃ k, n = k + 1 := ⟨n - 1, by omega⟩
    obtain ⟨u, rfl, h2⟩ := SayPairs.complete h r n (by omega)
    have := skip_char (r := u ++ '}' :: r) (c := '"') hw (by decide)
    rw [List.cons_append, value, if_neg (by decide), if_neg (by decide), if_pos rfl, List.append_assoc, List.append_assoc, List.cons_append, List.cons_append, List.nil_append, this]
    simp only [h2, close, isDict_unique (isDict_setAll _) hd, hh]
theorem SayItems.complete : ∀ {t : List Char} {s s' : σ} {vs : List V}, SayItems F hook t s vs s' → ∀ (r : List Char) (n : Nat), 2 * t.length + 1 < n → elements F hook n (t ++ ']' :: r) s = .ok (vs, r, s')
  | _, s, _, _, .last (t := t) (w := w) h hw, r, n, hn => by
    simp only [List.length_append] at hn
    obtain ⟨n, rfl⟩ : ∃ k, n = k + 1 := ⟨n - 1, by omega⟩
    have h1 := Says.complete h (w ++ ']' :: r) n (ends_white hw (by decide)) (by omega)
    have h2 := skip_char (r := r) (c := ']') hw (by decide)
    rw [elements, List.append_assoc, h1]
    simp only [h2]
  | _, s, _, _, .more (t := t) (w := w) (w' := w') (u := u) h hw hw' hs, r, n, hn => by
    simp only [List.length_append, List.length_cons] at hn
    obtain ⟨n, rfl⟩ : ∃ k, n = k + 1 := ⟨n - 1, by omega⟩
    have h1 := Says.complete h (w ++ ',' :: (w' ++ (u ++ ']' :: r))) n (ends_white hw (by decide)) (by omega)
    have h2 := skip_char (r := w' ++ (u ++ ']' :: r)) (c := ',') hw (by decide)
    have h3 := SayItems.complete hs r n (by omega)
    have h4 := skip_lead (r := ']' :: r) hw' hs.head
    rw [elements]
    simp only [List.append_assoc, List.cons_append, h1, h2, h3, h4]
theorem SayPairs.complete : ∀ {t : List Char} {s s' : σ} {ps : List (String × V)}, SayPairs F hook t s ps s' → ∀ (r : List Char) (n : Nat), 2 * t.length < n →
    ∃ u, t = '"' :: u ∧ members F hook n (u ++ '}' :: r) s = .ok (ps, r, s')
  | _, s, _, _, .last (a := a) (b := b) (t := t) (w := w) hq ha hb h hw, r, n, hn => by
    obtain ⟨u, rfl, hu⟩ := hq
    simp only [List.length_append, List.length_cons, List.length_nil] at hn
    obtain ⟨n, rfl⟩ : ∃ k, n = k + 1 := ⟨n - 1, by omega⟩
    refine ⟨u ++ '"' :: (a ++ ':' :: (b ++ (t ++ w))), by simp, ?_⟩
    have h0 := scanString_complete hu (a ++ ':' :: (b ++ (t ++ (w ++ '}' :: r))))
    have h1 := skip_char (r := b ++ (t ++ (w ++ '}' :: r))) (c := ':') ha (by decide)
    have h2 := skip_lead (r := w ++ '}' :: r) hb h.head
    have h3 := Says.complete h (w ++ '}' :: r) n (ends_white hw (by decide)) (by omega)
    have h4 := skip_char (r := r) (c := '}') hw (by decide)
    simp only [List.append_assoc, List.cons_append]
    rw [members, h0 _ (by simp only [List.length_append]; omega)]
    simp only [h1, h2, h3, h4, String.ofList_toList]
  | _, s, _, _, .more (a := a) (b := b) (t := t) (w := w) (w' := w') (u := x) hq ha hb h hw hw' hs, r, n, hn => by
    obtain ⟨u, rfl, hu⟩ := hq
    simp only [List.length_append, List.length_cons, List.length_nil] at hn
    obtain ⟨n, rfl⟩ : ∃ k, n = k + 1 := ⟨n - 1, by omega⟩
    obtain ⟨y, rfl, h5⟩ := SayPairs.complete hs r n (by omega)
    refine ⟨u ++ '"' :: (a ++ ':' :: (b ++ (t ++ (w ++ ',' :: (w' ++ '"' :: y))))), by simp, ?_⟩
    have h0 := scanString_complete hu (a ++ ':' :: (b ++ (t ++ (w ++ ',' :: (w' ++ ('"' :: (y ++ '}' :: r)))))))
    have h1 := skip_char (r := b ++ (t ++ (w ++ ',' :: (w' ++ ('"' :: (y ++ '}' :: r)))))) (c := ':') ha (by decide)
    have h2 := skip_lead (r := w ++ ',' :: (w' ++ ('"' :: (y ++ '}' :: r)))) hb h.head
    have h3 := Says.complete h (w ++ ',' :: (w' ++ ('"' :: (y ++ '}' :: r)))) n (ends_white hw (by decide)) (by omega)
    have h4 := skip_char (r := w' ++ ('"' :: (y ++ '}' :: r))) (c := ',') hw (by decide)
    have h6 := skip_char (r := y ++ '}' :: r) (c := '"') hw' (by decide)
    simp only [List.append_assoc, List.cons_append]
    rw [members, h0 _ (by simp only [List.length_append]; omega)]
    simp only [h1, h2, h3, h4, h5, h6, String.ofList_toList]
end

/-- C75: exactly the texts of the grammar are read, as what they say: a value with whitespace around it. -/
theorem C75_grammar (cs : List Char) (s s' : σ) (v : V) : readText F hook cs s = .ok (v, s') ↔ ∃ a t b, cs = a ++ (t ++ b) ∧ White a ∧ White b ∧ Says F hook t s v s' := by
  constructor
  · intro h
    unfold readText at h
    split at h
    · cases h
    · split at h
      · cases h
      · rename_i v' r s1 hv
        split at h
        · rename_i hr
          simp only [Except.ok.injEq, Prod.mk.injEq] at h
          obtain ⟨rfl, rfl⟩ := h
          obtain ⟨t, e, ht⟩ := (sound _).1 _ _ _ _ _ hv
          obtain ⟨a, ha, hcs⟩ := skip_sound cs
          obtain ⟨b, hb, hrb⟩ := skip_sound r
          rw [hr, List.append_nil] at hrb
          exact ⟨a, t, r, by rw [← e]; exact hcs, ha, hrb ▸ hb, ht⟩
        · cases h
  · rintro ⟨a, t, b, rfl, ha, hb, h⟩
    have hs := skip_lead (r := b) ha h.head
    have hE : Ends b := by simpa using white_ends hb (r := []) (by simp [Ends])
    have h1 := h.complete b (2 * (a ++ (t ++ b)).length + 2) hE (by simp only [List.length_append]; omega)
    unfold readText
    rw [if_neg, hs, h1]
    · simp only [skip_all hb, if_true]
    · obtain ⟨c, u, rfl, hc⟩ := h.head
      cases a with
      | nil => simp only [List.nil_append, List.cons_append, List.head?_cons, Option.some.injEq]; rintro rfl; exact absurd hc (by unfold Lead; decide)
      | cons x a =>
        simp only [List.cons_append, List.head?_cons, Option.some.injEq]
        rintro rfl
        exact absurd (ha '\uFEFF' (by simp)) (by decide)
end

section
variable {σ : Type} {F : Floats} {hook : List (String × V) → σ → Except PyErr (V × σ)}

/-- C75: every other text is refused, with an exception. -/
theorem C75_rejects (cs : List Char) (s : σ) : (∃ e, readText F hook cs s = .error (.raised e)) ↔ ¬ ∃ a t b v s', cs = a ++ (t ++ b) ∧ White a ∧ White b ∧ Says F hook t s v s' := by
  constructor
  · rintro ⟨e, h⟩ ⟨a, t, b, v, s', h'⟩
    rw [(C75_grammar cs s s' v).2 ⟨a, t, b, h'⟩] at h
    cases h
  · intro h
    cases hr : readText F hook cs s with
    | ok x =>
      obtain ⟨a, t, b, h'⟩ := (C75_grammar cs s x.2 x.1).1 hr
      exact absurd ⟨a, t, b, x.1, x.2, h'⟩ h
    | error e =>
      cases e with
      | rounds => exact absurd hr (C75_total cs s)
      | raised e => exact ⟨e, rfl⟩
end

/-- C75: a text says at most one thing. -/
theorem C75_unambiguous {F : Floats} (a t b a' t' b' : List Char) (v v' : V) (ha : White a) (hb : White b) (ha' : White a') (hb' : White b') (h : Says F plainHook t () v ()) (h' : Says F plainHook t' () v' ())
    (e : a ++ (t ++ b) = a' ++ (t' ++ b')) : v = v' := by
  have h1 := (C75_grammar (F := F) (hook := plainHook) (a ++ (t ++ b)) () () v).2 ⟨a, t, b, rfl, ha, hb, h⟩
  have h2 := (C75_grammar (F := F) (hook := plainHook) (a ++ (t ++ b)) () () v').2 ⟨a', t', b', e, ha', hb', h'⟩
  rw [h1] at h2
  cases h2
  rfl

/-! ## Examples -/

/-- of a key given twice the last value counts -/
example : readText someFloats plainHook "{\"a\": 1, \"b\" :null,\"a\": [ ]}".toList () = .ok (.dict [.str "a", .str "b"] [.list [], .none], ()) := by decide +kernel

example : Says someFloats plainHook "[1, \"\\u00E9\"]".toList () (.list [.int 1, .str "é"]) () := by
  refine .list (w := []) (t := "1, \"\\u00E9\"".toList) (by simp [White]) (.more (t := ['1']) (w := []) (w' := [' ']) (u := "\"\\u00E9\"".toList) (.number (.nat (i := ['1']) ?_)) (by simp [White]) (by simp [White])
    (.last (t := "\"\\u00E9\"".toList) (w := []) (.string ⟨"\\u00E9".toList, rfl, ?_⟩) (by simp [White])))
  · exact .inr ⟨⟨by simp, by decide⟩, by decide⟩
  · exact .cons (t := "\\u00E9".toList) (u := []) (.code ⟨'0', '0', 'E', '9', 0, 0, 14, 9, rfl, .inl rfl, .inl rfl, .inr rfl, .inl rfl, by decide⟩) .nil

/-- what is not JSON -/
example : ∀ t ∈ ["", "[1,]", "{'a': 1}", "{\"a\" 1}", "01", "1.", "+1", ".5", "nul", "\"a\nb\"", "\"\\x41\"", "1 2", "[1}", "\u00a0true"],
    readText someFloats plainHook t.toList () = .error (.raised .valueError) := by decide +kernel

end Verif.JsonText
