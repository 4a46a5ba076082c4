import Verif.Model.JsonText
import Verif.Props.JsonBase
/-!
# The text of JSON is read as what was written

Specifications: what may be around a value (`White`, `Style.Fine`), what a float looks like (`IsFloat`, `Faithful`), what a tree is (`Tree`).
-/

namespace Verif.JsonText
open Verif.Py Verif.Value Verif.Schema Verif.Json

/-! ## Specification -/

/-- whitespace of JSON -/
def White (l : List Char) : Prop := ∀ c ∈ l, c = ' ' ∨ c = '\t' ∨ c = '\n' ∨ c = '\r'

/-- indentation is whitespace, separators are a comma and a colon with whitespace around them -/
structure Style.Fine (st : Style) : Prop where
  indent : ∀ i, st.indent = some i → White i
  item : ∃ a b, st.itemSep = a ++ ',' :: b ∧ White a ∧ White b
  key : ∃ a b, st.keySep = a ++ ':' :: b ∧ White a ∧ White b

/-- one or more digits -/
def Digits (l : List Char) : Prop := l ≠ [] ∧ ∀ c ∈ l, c.isDigit = true

/-- a number of JSON with a fraction or an exponent -/
def IsFloat (l : List Char) : Prop := ∃ m i f e : List Char, l = m ++ (i ++ (f ++ e)) ∧ (m = [] ∨ m = ['-']) ∧
  (i = ['0'] ∨ Digits i ∧ i.head? ≠ some '0') ∧
  (f = [] ∨ ∃ ds, Digits ds ∧ f = '.' :: ds) ∧
  (e = [] ∨ ∃ c g ds, (c = 'e' ∨ c = 'E') ∧ (g = [] ∨ g = ['-'] ∨ g = ['+']) ∧ Digits ds ∧ e = c :: (g ++ ds)) ∧
  ¬ (f = [] ∧ e = [])

/-- the text of a float is a number of JSON, and is read as that float -/
def Faithful (F : Floats) (q : Rat) : Prop := IsFloat (F.repr q) ∧ F.read (F.repr q) = q

mutual
/-- what JSON can say: None, booleans, numbers, strings, lists, and dictionaries with distinct strings as keys -/
def Tree (F : Floats) : V → Prop
  | .none => True
  | .bool _ => True
  | .int _ => True
  | .float q => Faithful F q
  | .str _ => True
  | .list l => Trees F l
  | .dict ks vs => (∃ names : List String, ks = names.map V.str ∧ names.Nodup ∧ names.length = vs.length) ∧ Trees F vs
  | _ => False
def Trees (F : Floats) : List V → Prop
  | [] => True
  | v :: vs => Tree F v ∧ Trees F vs
end

/-! ## Whitespace -/

theorem isWhite_iff {c : Char} : isWhite c = true ↔ c = ' ' ∨ c = '\t' ∨ c = '\n' ∨ c = '\r' := by
  simp [isWhite, or_assoc]

theorem skip_white {w : List Char} (h : White w) (r : List Char) : skip (w ++ r) = skip r := by
  induction w with
  | nil => rfl
  | cons c w ih =>
    have hc : isWhite c = true := isWhite_iff.2 (h c (by simp))
    simp only [skip, List.cons_append, List.dropWhile_cons, hc, if_true]
    exact ih (fun d hd => h d (by simp [hd]))

theorem skip_solid {c : Char} (h : isWhite c = false) (r : List Char) : skip (c :: r) = c :: r := by
  simp [skip, h]

theorem skip_all {w : List Char} (h : White w) : skip w = [] := by
  have := skip_white h []
  simpa [skip] using this

theorem white_append {a b : List Char} (ha : White a) (hb : White b) : White (a ++ b) := by
  intro c hc
  rcases List.mem_append.1 hc with h | h
  · exact ha c h
  · exact hb c h

theorem white_newline {st : Style} (h : st.Fine) (level : Nat) : White (st.newline level) := by
  unfold Style.newline
  cases hi : st.indent with
  | none => simp [White]
  | some i =>
    intro c hc
    simp only [List.mem_cons, List.mem_flatten, List.mem_replicate] at hc
    rcases hc with rfl | ⟨l, ⟨_, rfl⟩, hc⟩
    · simp
    · exact h.indent _ hi c hc

/-! ## Strings -/

theorem hexVal_hexDigit : ∀ k, k < 16 → hexVal (hexDigit k) = some k := by decide

theorem hex4_uEscape {n : Nat} (h : n < 65536) (r : List Char) :
    hex4 (hexDigit (n / 4096 % 16) :: hexDigit (n / 256 % 16) :: hexDigit (n / 16 % 16) :: hexDigit (n % 16) :: r) = some (n, r) := by
  simp only [hex4, hexVal_hexDigit _ (Nat.mod_lt _ (by decide : 0 < 16))]
  congr 2
  omega

theorem unit_raw {c : Char} (h1 : c ≠ '\\') (h2 : ¬ c < ' ') (r : List Char) : unit (c :: r) = .ok (c, r) := by
  unfold unit
  split <;> simp_all

theorem char_cases (c : Char) : c.toNat < 0xd800 ∨ 0xdfff < c.toNat ∧ c.toNat < 0x110000 := by
  have := c.valid
  simp only [UInt32.isValidChar, Nat.isValidChar] at this
  exact this

theorem unit_escape (ascii : Bool) (c : Char) (r : List Char) : unit (escape ascii c ++ r) = .ok (c, r) := by
  unfold escape
  split
  · subst_vars; rfl
  split
  · subst_vars; rfl
  split
  · subst_vars; rfl
  split
  · subst_vars; rfl
  split
  · subst_vars; rfl
  split
  · subst_vars; rfl
  split
  · subst_vars; rfl
  rename_i h1 h2 h3 h4 h5 h6 h7
  split
  · rename_i h
    exact unit_raw h2 (by simpa using h.1) r
  split
  · rename_i h
    simp only [uEscape, List.cons_append, List.nil_append, unit, hex4_uEscape h]
    have := char_cases c
    rw [if_neg (by omega), if_neg (by omega), Char.ofNat_toNat]
  · rename_i h
    have hc := char_cases c
    have e1 : 0xd800 + (c.toNat - 0x10000) / 1024 < 65536 := by omega
    have e2 : 0xdc00 + (c.toNat - 0x10000) % 1024 < 65536 := by omega
    simp only [uEscape, List.cons_append, List.nil_append, unit, hex4_uEscape e1]
    rw [if_pos (by omega)]
    simp only [secondHalf, hex4_uEscape e2]
    rw [if_pos (by omega)]
    have : 0x10000 + (0xd800 + (c.toNat - 0x10000) / 1024 - 0xd800) * 1024 + (0xdc00 + (c.toNat - 0x10000) % 1024 - 0xdc00) = c.toNat := by omega
    rw [this, Char.ofNat_toNat]

theorem escape_head (ascii : Bool) (c : Char) : ∃ d t, escape ascii c = d :: t ∧ d ≠ '"' := by
  unfold escape
  split
  · exact ⟨_, _, rfl, by decide⟩
  rename_i h0
  repeat' split
  all_goals first
    | exact ⟨_, _, rfl, by decide⟩
    | exact ⟨_, _, rfl, h0⟩

theorem scanString_step {cs : List Char} (h : cs.head? ≠ some '"') (n : Nat) : scanString (n + 1) cs = match unit cs with
      | .error e => .error (.raised e)
      | .ok (c, r) => match scanString n r with
        | .error e => .error e
        | .ok (s, r') => .ok (c :: s, r') := by
  rw [scanString]
  · cases unit cs with
    | error e => rfl
    | ok p => cases scanString n p.2 <;> rfl
  · rintro r rfl
    simp at h

theorem scanString_escaped (ascii : Bool) (s r : List Char) (n : Nat) (h : s.length < n) :
    scanString n (s.flatMap (escape ascii) ++ '"' :: r) = .ok (s, r) := by
  induction s generalizing n with
  | nil =>
    obtain ⟨n, rfl⟩ : ∃ k, n = k + 1 := ⟨n - 1, by simp at h; omega⟩
    simp [scanString]
  | cons c s ih =>
    obtain ⟨n, rfl⟩ : ∃ k, n = k + 1 := ⟨n - 1, by simp at h; omega⟩
    rw [scanString_step]
    · simp only [List.flatMap_cons, List.append_assoc, unit_escape]
      rw [ih n (by simp at h; omega)]
    · obtain ⟨d, t, e, hd⟩ := escape_head ascii c
      simp [List.flatMap_cons, e, hd]

theorem escape_length (ascii : Bool) (s : List Char) : s.length ≤ (s.flatMap (escape ascii)).length := by
  induction s with
  | nil => simp
  | cons c s ih =>
    obtain ⟨d, t, e, _⟩ := escape_head ascii c
    simp only [List.flatMap_cons, List.length_append, List.length_cons, e]
    omega

/-! ## Numbers -/

/-- what may follow a number -/
def Ends (r : List Char) : Prop := ∀ c, r.head? = some c → c.isDigit = false ∧ c ≠ '.' ∧ c ≠ 'e' ∧ c ≠ 'E'

theorem takeWhile_digits {ds r : List Char} (h : ∀ c ∈ ds, c.isDigit = true) (hr : ∀ c, r.head? = some c → c.isDigit = false) :
    (ds ++ r).takeWhile Char.isDigit = ds ∧ (ds ++ r).dropWhile Char.isDigit = r := by
  induction ds with
  | nil =>
    cases r with
    | nil => simp
    | cons c r =>
      have := hr c rfl
      simp [this]
  | cons d ds ih =>
    have hd : d.isDigit = true := h d (by simp)
    have := ih (fun c hc => h c (by simp [hc]))
    simp [hd, this.1, this.2]

theorem intPart_digits {i r : List Char} (hi : i = ['0'] ∨ Digits i ∧ i.head? ≠ some '0') (hr : ∀ c, r.head? = some c → c.isDigit = false) :
    intPart (i ++ r) = some (i, r) := by
  rcases hi with rfl | ⟨⟨h1, h2⟩, h3⟩
  · rfl
  · obtain ⟨c, ds, rfl⟩ := List.exists_cons_of_ne_nil h1
    have hc : c.isDigit = true := h2 c (by simp)
    have h0 : c ≠ '0' := by simpa using h3
    have := takeWhile_digits (ds := ds) (r := r) (fun d hd => h2 d (by simp [hd])) hr
    simp [intPart, h0, hc, this.1, this.2]

theorem fraction_none {r : List Char} (h : r.head? ≠ some '.') : fraction r = ([], r) := by
  unfold fraction
  split
  · simp at h
  · rfl

theorem fraction_digits {ds r : List Char} (h : Digits ds) (hr : ∀ c, r.head? = some c → c.isDigit = false) : fraction ('.' :: (ds ++ r)) = ('.' :: ds, r) := by
  have := takeWhile_digits h.2 hr
  simp only [fraction, this.1, this.2]
  rw [if_neg h.1]

theorem exponent_none {r : List Char} (h : ∀ c, r.head? = some c → c ≠ 'e' ∧ c ≠ 'E') : exponent r = ([], r) := by
  cases r with
  | nil => rfl
  | cons c r =>
    have := h c rfl
    simp [exponent, this.1, this.2]

theorem digit_ne {d c : Char} (hd : d.isDigit = true) (hc : c.isDigit = false) : d ≠ c := by
  rintro rfl; rw [hd] at hc; cases hc

theorem sign_digits {g ds r : List Char} (hg : g = [] ∨ g = ['-'] ∨ g = ['+']) (hd : Digits ds) : sign (g ++ (ds ++ r)) = (g, ds ++ r) := by
  obtain ⟨d, ds', rfl⟩ := List.exists_cons_of_ne_nil hd.1
  have hdig : d.isDigit = true := hd.2 d (by simp)
  rcases hg with rfl | rfl | rfl
  · have h1 : d ≠ '-' := digit_ne hdig (by decide)
    have h2 : d ≠ '+' := digit_ne hdig (by decide)
    simp [sign, h1, h2]
  · simp [sign]
  · simp [sign]

theorem exponent_digits {c : Char} {g ds r : List Char} (hc : c = 'e' ∨ c = 'E') (hg : g = [] ∨ g = ['-'] ∨ g = ['+']) (hd : Digits ds)
    (hr : ∀ c, r.head? = some c → c.isDigit = false) : exponent (c :: (g ++ (ds ++ r))) = (c :: (g ++ ds), r) := by
  have := takeWhile_digits hd.2 hr
  simp only [exponent, if_pos hc, sign_digits hg hd, this.1, this.2, if_neg hd.1]

theorem number_neg (F : Floats) (r : List Char) : number F ('-' :: r) = match intPart r with
    | none => none
    | some (i, r) =>
      if (fraction r).1 = [] ∧ (exponent (fraction r).2).1 = [] then some (.int (-(Nat.ofDigitChars 10 i 0 : Int)), (exponent (fraction r).2).2)
      else some (.float (F.read (['-'] ++ (i ++ ((fraction r).1 ++ (exponent (fraction r).2).1)))), (exponent (fraction r).2).2) := by
  simp only [number]
  cases intPart r <;> rfl

theorem number_pos (F : Floats) {r : List Char} (h : r.head? ≠ some '-') : number F r = match intPart r with
    | none => none
    | some (i, r) =>
      if (fraction r).1 = [] ∧ (exponent (fraction r).2).1 = [] then some (.int (Nat.ofDigitChars 10 i 0 : Int), (exponent (fraction r).2).2)
      else some (.float (F.read (i ++ ((fraction r).1 ++ (exponent (fraction r).2).1))), (exponent (fraction r).2).2) := by
  unfold number
  split
  rename_i neg cs' e
  split at e
  · simp at h
  · cases e
    cases intPart r <;> rfl

theorem toDigits_lead (n : Nat) : Nat.toDigits 10 n = ['0'] ∨ Digits (Nat.toDigits 10 n) ∧ (Nat.toDigits 10 n).head? ≠ some '0' := by
  have hd : ∀ n, Digits (Nat.toDigits 10 n) := fun n =>
    ⟨Nat.toDigits_ne_nil, fun c hc => Nat.isDigit_of_mem_toDigits (by decide) (by decide) hc⟩
  have hh : ∀ n, 0 < n → (Nat.toDigits 10 n).head? ≠ some '0' := by
    intro n
    induction n using Nat.strongRecOn with
    | ind n ih =>
      intro hn
      by_cases h : n < 10
      · have : ∀ k, k < 10 → 0 < k → (Nat.toDigits 10 k).head? ≠ some '0' := by decide
        exact this n h hn
      · rw [Nat.toDigits_of_base_le (by decide) (by omega)]
        have := ih (n / 10) (by omega) (by omega)
        cases e : Nat.toDigits 10 (n / 10) with
        | nil => exact absurd e Nat.toDigits_ne_nil
        | cons c t => rw [e] at this; simpa using this
  rcases Nat.eq_zero_or_pos n with rfl | h
  · left; rfl
  · exact Or.inr ⟨hd n, hh n h⟩

theorem lead_head {i r : List Char} (hi : i = ['0'] ∨ Digits i ∧ i.head? ≠ some '0') : ∃ c t, i ++ r = c :: t ∧ c.isDigit = true := by
  rcases hi with rfl | ⟨⟨h1, h2⟩, _⟩
  · exact ⟨'0', r, rfl, by decide⟩
  · obtain ⟨c, ds, rfl⟩ := List.exists_cons_of_ne_nil h1
    exact ⟨c, ds ++ r, rfl, h2 c (by simp)⟩

theorem number_int (F : Floats) (i : Int) {r : List Char} (hr : Ends r) : number F (intText i ++ r) = some (.int i, r) := by
  have hp := intPart_digits (r := r) (toDigits_lead i.natAbs) (fun c hc => (hr c hc).1)
  have hf : fraction r = ([], r) := fraction_none (fun h => (hr _ h).2.1 rfl)
  have he : exponent r = ([], r) := exponent_none (fun c hc => (hr c hc).2.2)
  unfold intText
  split
  · rename_i hneg
    rw [List.cons_append, number_neg, hp]
    simp only [hf, he, and_self, if_true, Nat.ofDigitChars_ten_toDigits]
    congr 3
    omega
  · rename_i hneg
    obtain ⟨c, t, e, hc⟩ := lead_head (r := r) (toDigits_lead i.natAbs)
    rw [number_pos, hp]
    · simp only [hf, he, and_self, if_true, Nat.ofDigitChars_ten_toDigits]
      congr 3
      omega
    · rw [e]
      simp only [List.head?_cons, ne_eq, Option.some.injEq]
      exact digit_ne hc (by decide)

theorem number_float {F : Floats} {q : Rat} (hq : Faithful F q) {r : List Char} (hr : Ends r) : number F (F.repr q ++ r) = some (.float q, r) := by
  obtain ⟨⟨m, i, f, e, hl, hm, hi, hf, he, hne⟩, hread⟩ := hq
  have hr1 : ∀ c, r.head? = some c → c.isDigit = false := fun c hc => (hr c hc).1
  have hE : exponent (e ++ r) = (e, r) := by
    rcases he with rfl | ⟨c, g, ds, hc, hg, hds, rfl⟩
    · exact exponent_none (fun c hc => (hr c hc).2.2)
    · have := exponent_digits (r := r) hc hg hds hr1
      simpa using this
  have hEd : ∀ c, (e ++ r).head? = some c → c.isDigit = false := by
    rcases he with rfl | ⟨c, g, ds, hc, hg, hds, rfl⟩
    · exact hr1
    · intro d hd
      simp at hd
      subst hd
      rcases hc with rfl | rfl <;> decide
  have hEdot : (e ++ r).head? ≠ some '.' := by
    rcases he with rfl | ⟨c, g, ds, hc, hg, hds, rfl⟩
    · exact fun h => (hr _ h).2.1 rfl
    · simp
      rcases hc with rfl | rfl <;> decide
  have hF : fraction (f ++ (e ++ r)) = (f, e ++ r) := by
    rcases hf with rfl | ⟨ds, hds, rfl⟩
    · exact fraction_none hEdot
    · exact fraction_digits hds hEd
  have hFd : ∀ c, (f ++ (e ++ r)).head? = some c → c.isDigit = false := by
    rcases hf with rfl | ⟨ds, hds, rfl⟩
    · exact hEd
    · intro d hd
      simp at hd
      subst hd
      decide
  have hI := intPart_digits hi hFd
  have hassoc : F.repr q ++ r = m ++ (i ++ (f ++ (e ++ r))) := by rw [hl]; simp
  rw [hassoc]
  rcases hm with rfl | rfl
  · obtain ⟨c, t, e', hc⟩ := lead_head (r := f ++ (e ++ r)) hi
    rw [List.nil_append, number_pos, hI]
    · simp only [hF, hE, if_neg hne]
      rw [← hread, hl]
      simp
    · rw [e']
      simp only [List.head?_cons, ne_eq, Option.some.injEq]
      exact digit_ne hc (by decide)
  · rw [List.cons_append, List.nil_append, number_neg, hI]
    simp only [hF, hE, if_neg hne]
    rw [← hread, hl]

/-- how numbers begin -/
theorem number_head {F : Floats} {q : Rat} (hq : Faithful F q) : ∃ c t, F.repr q = c :: t ∧ (c = '-' ∨ c.isDigit = true) := by
  obtain ⟨⟨m, i, f, e, hl, hm, hi, -⟩, -⟩ := hq
  rw [hl]
  rcases hm with rfl | rfl
  · obtain ⟨c, t, h1, h2⟩ := lead_head (r := f ++ e) hi
    exact ⟨c, t, h1, Or.inr h2⟩
  · exact ⟨'-', _, rfl, Or.inl rfl⟩

theorem int_head (i : Int) : ∃ c t, intText i = c :: t ∧ (c = '-' ∨ c.isDigit = true) := by
  unfold intText
  split
  · exact ⟨'-', _, rfl, Or.inl rfl⟩
  · obtain ⟨c, t, h1, h2⟩ := lead_head (r := []) (toDigits_lead i.natAbs)
    exact ⟨c, t, by simpa using h1, Or.inr h2⟩

/-! ## Values -/

/-- how values begin -/
def Lead (c : Char) : Prop := c = '"' ∨ c = '[' ∨ c = '{' ∨ c = 'n' ∨ c = 't' ∨ c = 'f' ∨ c = '-' ∨ c.isDigit = true

theorem Lead.solid {c : Char} (h : Lead c) : isWhite c = false ∧ c ≠ ']' ∧ c ≠ '\uFEFF' := by
  rcases h with rfl | rfl | rfl | rfl | rfl | rfl | rfl | h
  iterate 7 decide
  refine ⟨?_, digit_ne h (by decide), digit_ne h (by decide)⟩
  cases hw : isWhite c with
  | false => rfl
  | true =>
    rcases isWhite_iff.1 hw with rfl | rfl | rfl | rfl <;> exact absurd h (by decide)

theorem text_head {F : Floats} {st : Style} {v : V} (h : Tree F v) (level : Nat) : ∃ c t, text F st level v = c :: t ∧ Lead c := by
  cases v with
  | none => exact ⟨_, _, rfl, by simp [Lead]⟩
  | bool b => cases b <;> exact ⟨_, _, rfl, by simp [Lead]⟩
  | int i =>
    obtain ⟨c, t, h1, h2⟩ := int_head i
    refine ⟨c, t, by simpa [text] using h1, ?_⟩
    rcases h2 with rfl | h2 <;> simp [Lead, *]
  | float q =>
    obtain ⟨c, t, h1, h2⟩ := number_head (F := F) (q := q) (by simpa [Tree] using h)
    refine ⟨c, t, by simpa [text] using h1, ?_⟩
    rcases h2 with rfl | h2 <;> simp [Lead, *]
  | str s => exact ⟨_, _, rfl, by simp [Lead]⟩
  | list l => cases l <;> exact ⟨'[', _, by simp only [text]; rfl, by simp [Lead]⟩
  | dict ks vs => cases ks <;> exact ⟨'{', _, by simp only [text]; rfl, by simp [Lead]⟩
  | _ => simp [Tree] at h

theorem word_none {w cs : List Char} {a : Char} (hw : w.head? = some a) (hc : cs.head? ≠ some a) : word w cs = none := by
  cases w with
  | nil => simp at hw
  | cons b w =>
    simp at hw
    subst hw
    cases cs with
    | nil => simp [word]
    | cons c cs =>
      have : b ≠ c := by intro e; subst e; simp at hc
      simp [word, List.isPrefixOf, this]

theorem word_self (w r : List Char) : word w (w ++ r) = some r := by
  have : w.isPrefixOf (w ++ r) = true := List.isPrefixOf_iff_prefix.2 ⟨r, rfl⟩
  simp [word, this]

section
variable {σ : Type} {F : Floats} {st : Style} {hook : List (String × V) → σ → Except PyErr (V × σ)}

/-- the outcome of the hook on the tree, with what follows in the text -/
def follow {α : Type} (x : Except PyErr (α × σ)) (r : List Char) : Except Stop (α × List Char × σ) := match x with
  | .error e => .error (.raised e)
  | .ok (v, s) => .ok (v, r, s)

theorem value_atom {c : Char} (h1 : c ≠ '"') (h2 : c ≠ '[') (h3 : c ≠ '{') (n : Nat) (r : List Char) (s : σ) :
    value F hook (n + 1) (c :: r) s = atom F (c :: r) s := by
  rw [value, if_neg h1, if_neg h2, if_neg h3]

theorem atom_number {cs : List Char} {c : Char} (hc : cs.head? = some c) (h : c = '-' ∨ c.isDigit = true) {v : V} {r : List Char} (hn : number F cs = some (v, r)) (s : σ) :
    atom F cs s = .ok (v, r, s) := by
  have hne : ∀ d : Char, d ≠ '-' → d.isDigit = false → cs.head? ≠ some d := by
    intro d h1 h2 e
    rw [hc] at e
    injection e with e
    subst e
    rcases h with rfl | h
    · exact h1 rfl
    · rw [h] at h2; cases h2
  unfold atom
  rw [word_none (a := 'n') rfl (hne _ (by decide) (by decide)), word_none (a := 't') rfl (hne _ (by decide) (by decide)),
    word_none (a := 'f') rfl (hne _ (by decide) (by decide)), hn]

theorem value_number {t r : List Char} {c : Char} (hc : t.head? = some c) (h : c = '-' ∨ c.isDigit = true) {v : V} (hn : number F (t ++ r) = some (v, r)) (n : Nat) (hpos : 0 < n) (s : σ) :
    value F hook n (t ++ r) s = .ok (v, r, s) := by
  obtain ⟨n, rfl⟩ : ∃ k, n = k + 1 := ⟨n - 1, by omega⟩
  cases t with
  | nil => simp at hc
  | cons d t =>
    simp at hc
    subst hc
    have hne : ∀ e : Char, e ≠ '-' → e.isDigit = false → d ≠ e := by
      rintro e h1 h2 rfl
      rcases h with rfl | h
      · exact h1 rfl
      · rw [h] at h2; cases h2
    rw [List.cons_append] at hn ⊢
    rw [value_atom (hne _ (by decide) (by decide)) (hne _ (by decide) (by decide)) (hne _ (by decide) (by decide))]
    exact atom_number (c := d) rfl h hn s

theorem value_string (ascii : Bool) (t : String) (r : List Char) (n : Nat) (hpos : 0 < n) (s : σ) : value F hook n (quote ascii t ++ r) s = .ok (.str t, r, s) := by
  obtain ⟨n, rfl⟩ : ∃ k, n = k + 1 := ⟨n - 1, by omega⟩
  have hl := escape_length ascii t.toList
  simp only [quote, List.cons_append, List.append_assoc, List.nil_append]
  rw [value, if_pos rfl, scanString_escaped ascii _ _ _ (by simp only [List.length_append]; omega)]
  simp

theorem white_ends {w r : List Char} (hw : White w) (hr : Ends r) : Ends (w ++ r) := by
  cases w with
  | nil => exact hr
  | cons c w =>
    intro d hd
    simp at hd
    subst hd
    rcases hw c (by simp) with rfl | rfl | rfl | rfl <;> decide

theorem ends_cons {c : Char} (h : c.isDigit = false ∧ c ≠ '.' ∧ c ≠ 'e' ∧ c ≠ 'E') (r : List Char) : Ends (c :: r) := by
  intro d hd
  simp at hd
  subst hd
  exact h

theorem strings_names (names : List String) : strings (names.map V.str) = some names := by
  induction names with
  | nil => rfl
  | cons n ns ih => simp [strings, ih]

theorem decs_length' {vs ws : List V} {s s' : σ} (h : decs hook vs s = .ok (ws, s')) : ws.length = vs.length := by
  induction vs generalizing ws s with
  | nil => simp [decs] at h; simp [← h.1]
  | cons v vs ih =>
    simp only [decs] at h
    split at h
    · cases h
    · split at h
      · cases h
      · rename_i h2
        cases h
        simp [ih h2]

theorem close_names {names : List String} {vs : List V} (hn : names.Nodup) (hl : names.length = vs.length) (r : List Char) (s : σ) :
    close hook (names.zip vs) r s = follow (hook (names.zip vs) s) r := by
  have hk : Dict.keys (names.zip vs) = names := by
    simp only [Dict.keys]
    exact List.map_fst_zip (by omega)
  have : Dict.setAll [] (names.zip vs) = names.zip vs := Dict.setAll_nil_of_WF (by unfold Dict.WF; rw [hk]; exact hn)
  simp only [close, this, follow]
  cases hook (names.zip vs) s <;> rfl

theorem close_nil (r : List Char) (s : σ) : close hook [] r s = follow (hook [] s) r := by
  simp only [close, Dict.setAll, follow]
  cases hook [] s <;> rfl

mutual
theorem value_text (hst : st.Fine) (v : V) (hv : Tree F v) (level n : Nat) (r : List Char) (s : σ) (hn : 2 * (text F st level v).length < n) (hr : Ends r) :
    value F hook n (text F st level v ++ r) s = follow (dec hook v s) r := by
  match v, hv with
  | .none, _ =>
    obtain ⟨n, rfl⟩ : ∃ k, n = k + 1 := ⟨n - 1, by omega⟩
    simp only [text, List.cons_append, List.nil_append]
    rw [value_atom (by decide) (by decide) (by decide)]
    exact rfl
  | .bool true, _ =>
    obtain ⟨n, rfl⟩ : ∃ k, n = k + 1 := ⟨n - 1, by omega⟩
    simp only [text, List.cons_append, List.nil_append]
    rw [value_atom (by decide) (by decide) (by decide)]
    exact rfl
  | .bool false, _ =>
    obtain ⟨n, rfl⟩ : ∃ k, n = k + 1 := ⟨n - 1, by omega⟩
    simp only [text, List.cons_append, List.nil_append]
    rw [value_atom (by decide) (by decide) (by decide)]
    exact rfl
  | .int i, _ =>
    obtain ⟨c, t, h1, h2⟩ := int_head i
    simp only [text]
    exact value_number (c := c) (by rw [h1]; rfl) h2 (number_int F i hr) n (by omega) s
  | .float q, hv =>
    have hq : Faithful F q := by simpa [Tree] using hv
    obtain ⟨c, t, h1, h2⟩ := number_head hq
    simp only [text]
    exact value_number (c := c) (by rw [h1]; rfl) h2 (number_float hq hr) n (by omega) s
  | .str t, _ =>
    simp only [text]
    exact value_string _ _ _ _ (by omega) _
  | .list [], _ =>
    obtain ⟨n, rfl⟩ : ∃ k, n = k + 1 := ⟨n - 1, by omega⟩
    simp only [text, List.cons_append, List.nil_append]
    rw [value, if_neg (by decide), if_pos rfl, skip_solid (by decide)]
    rfl
  | .list (v :: vs), hv =>
    obtain ⟨n, rfl⟩ : ∃ k, n = k + 1 := ⟨n - 1, by omega⟩
    have hvs : Trees F (v :: vs) := by simpa only [Tree] using hv
    simp only [text, List.cons_append, List.append_assoc, List.nil_append, List.length_cons, List.length_append, List.length_nil] at hn ⊢
    rw [value, if_neg (by decide), if_pos rfl, skip_white (white_newline hst _)]
    have hhead : ∃ c t, items F st (level + 1) (v :: vs) = c :: t ∧ Lead c := by
      obtain ⟨c, t, h1, h2⟩ := text_head (st := st) (show Tree F v from hvs.1) (level + 1)
      cases vs with
      | nil => exact ⟨c, t, by simpa only [items] using h1, h2⟩
      | cons w ws => exact ⟨c, _, by simp only [items, h1, List.cons_append]; rfl, h2⟩
    have hmain := elements_items hst (v :: vs) (by simp) hvs (level + 1) n (st.newline level ++ ']' :: r) r s (by omega)
      (white_ends (white_newline hst _) (ends_cons (by decide) _)) (by rw [skip_white (white_newline hst _), skip_solid (by decide)])
    obtain ⟨c, t, h1, h2⟩ := hhead
    rw [h1] at hmain ⊢
    rw [List.cons_append] at hmain ⊢
    rw [skip_solid h2.solid.1]
    have hne := h2.solid.2.1
    split
    · rename_i heq
      injection heq with heq _
      exact absurd heq hne
    · rw [hmain]
      simp only [dec, follow]
      cases decs hook (v :: vs) s with
      | error e => rfl
      | ok p => rfl
  | .dict [] vs, hv =>
    obtain ⟨n, rfl⟩ : ∃ k, n = k + 1 := ⟨n - 1, by omega⟩
    obtain ⟨⟨names, h1, h2, h3⟩, h4⟩ : (∃ names : List String, ([] : List V) = names.map V.str ∧ names.Nodup ∧ names.length = vs.length) ∧ Trees F vs := by simpa only [Tree] using hv
    obtain rfl : names = [] := by
      cases names with
      | nil => rfl
      | cons _ _ => cases h1
    obtain rfl : vs = [] := List.length_eq_zero_iff.1 h3.symm
    simp only [text, List.cons_append, List.nil_append]
    rw [value, if_neg (by decide), if_neg (by decide), if_pos rfl, skip_solid (by decide)]
    simp only [close_nil, dec, strings, decs, List.zip_nil_left]
  | .dict (k :: ks) vs, hv =>
    obtain ⟨n, rfl⟩ : ∃ k, n = k + 1 := ⟨n - 1, by omega⟩
    obtain ⟨⟨names, h1, h2, h3⟩, h4⟩ : (∃ names : List String, k :: ks = names.map V.str ∧ names.Nodup ∧ names.length = vs.length) ∧ Trees F vs := by simpa only [Tree] using hv
    simp only [text, List.cons_append, List.append_assoc, List.nil_append, List.length_cons, List.length_append, List.length_nil] at hn ⊢
    have hne : vs ≠ [] := by
      rintro rfl
      cases names with
      | nil => cases h1
      | cons _ _ => simp at h3
    obtain ⟨t, e1, e2⟩ := members_pairs hst vs hne h4 names h3 (level + 1) n (st.newline level ++ '}' :: r) r s (by rw [← h1]; omega)
      (white_ends (white_newline hst _) (ends_cons (by decide) _)) (by rw [skip_white (white_newline hst _), skip_solid (by decide)])
    rw [← h1] at e1
    rw [value, if_neg (by decide), if_neg (by decide), if_pos rfl, skip_white (white_newline hst _), e1, List.cons_append, skip_solid (by decide)]
    simp only [e2, dec, h1, strings_names]
    cases hd : decs hook vs s with
    | error e => rfl
    | ok p =>
      obtain ⟨ws, s'⟩ := p
      exact close_names h2 (by rw [decs_length' hd]; exact h3) r s'
termination_by 2 * sizeOf v
theorem elements_items (hst : st.Fine) (vs : List V) (hne : vs ≠ []) (hv : Trees F vs) (level n : Nat) (rest r : List Char) (s : σ) (hn : 2 * (items F st level vs).length + 1 < n)
    (hr : Ends rest) (hs : skip rest = ']' :: r) : elements F hook n (items F st level vs ++ rest) s = follow (decs hook vs s) r := by
  match vs, hv with
  | [], _ => exact absurd rfl hne
  | [v], hv =>
    obtain ⟨n, rfl⟩ : ∃ k, n = k + 1 := ⟨n - 1, by omega⟩
    simp only [items] at hn ⊢
    rw [elements, value_text hst v hv.1 level n rest s (by omega) hr]
    simp only [decs]
    cases dec hook v s with
    | error e => rfl
    | ok p => simp only [follow, hs]
  | v :: w :: ws, hv =>
    obtain ⟨n, rfl⟩ : ∃ k, n = k + 1 := ⟨n - 1, by omega⟩
    obtain ⟨a, b, hsep, ha, hb⟩ := hst.item
    simp only [items, hsep, List.length_append, List.length_cons, List.append_assoc, List.cons_append] at hn ⊢
    rw [elements, value_text hst v hv.1 level n _ s (by omega) (white_ends ha (ends_cons (by decide) _))]
    rw [decs]
    cases dec hook v s with
    | error e => rfl
    | ok p =>
      obtain ⟨u, s'⟩ := p
      obtain ⟨c, t, h1, h2⟩ : ∃ c t, items F st level (w :: ws) = c :: t ∧ Lead c := by
        obtain ⟨c, t, h1, h2⟩ := text_head (st := st) (show Tree F w from hv.2.1) level
        cases ws with
        | nil => exact ⟨c, t, by simpa only [items] using h1, h2⟩
        | cons w' ws => exact ⟨c, _, by simp only [items, h1, List.cons_append]; rfl, h2⟩
      have ih := elements_items hst (w :: ws) (by simp) hv.2 level n rest r s' (by omega) hr hs
      have hskip : skip (b ++ (st.newline level ++ (items F st level (w :: ws) ++ rest))) = items F st level (w :: ws) ++ rest := by
        rw [skip_white hb, skip_white (white_newline hst _), h1, List.cons_append, skip_solid h2.solid.1]
      simp only [follow, skip_white ha, skip_solid (show isWhite ',' = false by decide), hskip, ih]
      cases decs hook (w :: ws) s' with
      | error e => rfl
      | ok p => rfl
termination_by 2 * sizeOf vs + 1
theorem members_pairs (hst : st.Fine) (vs : List V) (hne : vs ≠ []) (hv : Trees F vs) (names : List String) (hl : names.length = vs.length) (level n : Nat) (rest r : List Char) (s : σ)
    (hn : 2 * (pairs F st level (names.map V.str) vs).length < n) (hr : Ends rest) (hs : skip rest = '}' :: r) :
    ∃ t, pairs F st level (names.map V.str) vs = '"' :: t ∧ members F hook n (t ++ rest) s = follow (match decs hook vs s with
      | .error e => .error e
      | .ok (ws, s') => .ok (names.zip ws, s')) r := by
  match vs, hv, names, hl with
  | [], _, _, _ => exact absurd rfl hne
  | [v], hv, [k], _ =>
    obtain ⟨n, rfl⟩ : ∃ k, n = k + 1 := ⟨n - 1, by omega⟩
    obtain ⟨a, b, hsep, ha, hb⟩ := hst.key
    have hlen := escape_length st.ascii k.toList
    simp only [List.map_cons, List.map_nil, pairs, quote, hsep, List.length_append, List.length_cons, List.append_assoc, List.cons_append, List.nil_append] at hn ⊢
    refine ⟨_, rfl, ?_⟩
    obtain ⟨c, t, h1, h2⟩ := text_head (st := st) (show Tree F v from hv.1) level
    have hskip : skip (b ++ (text F st level v ++ rest)) = text F st level v ++ rest := by
      rw [skip_white hb, h1, List.cons_append, skip_solid h2.solid.1]
    simp only [List.append_assoc, List.cons_append]
    rw [members, scanString_escaped _ _ _ _ (by simp only [List.length_append, List.length_cons]; omega)]
    simp only [skip_white ha, skip_solid (show isWhite ':' = false by decide), hskip, decs]
    rw [value_text hst v hv.1 level n rest s (by omega) hr]
    cases dec hook v s with
    | error e => rfl
    | ok p => simp [follow, hs]
  | v :: w :: ws, hv, k :: k' :: ks, hl =>
    obtain ⟨n, rfl⟩ : ∃ k, n = k + 1 := ⟨n - 1, by omega⟩
    obtain ⟨a, b, hsep, ha, hb⟩ := hst.key
    obtain ⟨a', b', hsep', ha', hb'⟩ := hst.item
    have hlen := escape_length st.ascii k.toList
    simp only [List.map_cons, pairs, quote, hsep, hsep', List.length_append, List.length_cons, List.append_assoc, List.cons_append, List.nil_append] at hn ⊢
    refine ⟨_, rfl, ?_⟩
    obtain ⟨c, t, h1, h2⟩ := text_head (st := st) (show Tree F v from hv.1) level
    have hskip : ∀ r, skip (b ++ (text F st level v ++ r)) = text F st level v ++ r := by
      intro r
      rw [skip_white hb, h1, List.cons_append, skip_solid h2.solid.1]
    simp only [List.append_assoc, List.cons_append]
    rw [members, scanString_escaped _ _ _ _ (by simp only [List.length_append, List.length_cons]; omega)]
    simp only [skip_white ha, skip_solid (show isWhite ':' = false by decide), hskip, decs]
    rw [value_text hst v hv.1 level n _ s (by omega) (white_ends ha' (ends_cons (by decide) _))]
    cases dec hook v s with
    | error e => rfl
    | ok p =>
      obtain ⟨u, s'⟩ := p
      obtain ⟨t', e1, e2⟩ := members_pairs hst (w :: ws) (by simp) hv.2 (k' :: ks) (by simpa using hl) level n rest r s' (by simp only [List.map_cons]; omega) hr hs
      simp only [List.map_cons] at e1
      have hskip' : skip (b' ++ (st.newline level ++ (pairs F st level (V.str k' :: ks.map V.str) (w :: ws) ++ rest))) = '"' :: (t' ++ rest) := by
        rw [skip_white hb', skip_white (white_newline hst _), e1, List.cons_append, skip_solid (by decide)]
      simp only [follow, skip_white ha', skip_solid (show isWhite ',' = false by decide), hskip', e2]
      simp only [decs]
      cases dec hook w s' with
      | error e => rfl
      | ok p =>
        obtain ⟨x, s2⟩ := p
        dsimp only
        cases decs hook ws s2 with
        | error e => rfl
        | ok p => simp
termination_by 2 * sizeOf vs + 1
end

/-! ## C75 -/

/-- C75: what `json.dumps` writes for a tree — with any indentation, whitespace around the separators, with or without `ensure_ascii` — and whitespace around it, `json.loads` reads as that
tree: it calls the hook on exactly the dictionaries of the tree, in the order of the tree. -/
theorem C75_text (hst : st.Fine) (v : V) (hv : Tree F v) (a b : List Char) (ha : White a) (hb : White b) (s : σ) :
    readText F hook (a ++ (text F st 0 v ++ b)) s = match dec hook v s with
      | .error e => .error (.raised e)
      | .ok r => .ok r := by
  obtain ⟨c, t, h1, h2⟩ := text_head (st := st) hv 0
  unfold readText
  rw [if_neg, skip_white ha]
  · have hskip : skip (text F st 0 v ++ b) = text F st 0 v ++ b := by rw [h1, List.cons_append, skip_solid h2.solid.1]
    rw [hskip, value_text hst v hv 0 _ b s (by simp only [List.length_append]; omega) (by simpa using white_ends hb (r := []) (by simp [Ends]))]
    cases dec hook v s with
    | error e => rfl
    | ok p => simp [follow, skip_all hb]
  · cases a with
    | nil =>
      rw [h1]
      simp only [List.nil_append, List.cons_append, List.head?_cons, Option.some.injEq]
      exact h2.solid.2.2
    | cons x a =>
      simp only [List.cons_append, List.head?_cons, Option.some.injEq]
      rcases ha x (by simp) with rfl | rfl | rfl | rfl <;> decide

/-- C75: `raw_loads` and `loads` of the text of a tree do what they do with the tree (`Verif.Json.rawLoads`, `Verif.Json.loads`). -/
theorem C75_loads (hst : st.Fine) (v : V) (hv : Tree F v) (env : Env) (m : Mem) :
    rawLoadsText F env m (text F st 0 v) = rawLoads env m v ∧ loadsText F env m (text F st 0 v) = loads env m v := by
  have key : ∀ sub, readText F (loadAndIndex env sub) (text F st 0 v) { mem := m, index := [] } = match dec (loadAndIndex env sub) v { mem := m, index := [] } with
      | .error e => .error (.raised e)
      | .ok r => .ok r := by
    intro sub
    have := C75_text (hook := loadAndIndex env sub) hst v hv [] [] (by simp [White]) (by simp [White]) { mem := m, index := [] }
    simp only [List.nil_append, List.append_nil] at this
    rw [this]
    cases dec (loadAndIndex env sub) v { mem := m, index := [] } <;> rfl
  constructor
  · simp only [rawLoadsText, rawLoads, key]
    cases dec (loadAndIndex env false) v { mem := m, index := [] } with
    | error e => rfl
    | ok p => rfl
  · simp only [loadsText, loads, key]
    cases dec (loadAndIndex env true) v { mem := m, index := [] } with
    | error e => rfl
    | ok p =>
      obtain ⟨w, s⟩ := p
      cases w <;> rfl

end

mutual
theorem dec_plain {F : Floats} (v : V) (hv : Tree F v) : dec plainHook v () = .ok (v, ()) := by
  match v, hv with
  | .none, _ => rfl
  | .bool _, _ => rfl
  | .int _, _ => rfl
  | .float _, _ => rfl
  | .str _, _ => rfl
  | .list l, hv => simp only [dec, decs_plain l (by simpa only [Tree] using hv)]
  | .dict ks vs, hv =>
    obtain ⟨⟨names, h1, h2, h3⟩, h4⟩ : (∃ names : List String, ks = names.map V.str ∧ names.Nodup ∧ names.length = vs.length) ∧ Trees F vs := by simpa only [Tree] using hv
    subst h1
    simp only [dec, strings_names, decs_plain vs h4, plainHook, mkDict]
    congr 3
    · have := congrArg (List.map V.str) (List.map_fst_zip (l₁ := names) (l₂ := vs) (by omega))
      rw [List.map_map] at this
      exact this
    · rw [List.map_snd_zip (by omega)]
theorem decs_plain {F : Floats} (vs : List V) (hv : Trees F vs) : decs plainHook vs () = .ok (vs, ()) := by
  match vs, hv with
  | [], _ => rfl
  | v :: vs, hv => simp only [decs, dec_plain v hv.1, decs_plain vs hv.2]
end

/-- C75: without a hook, what is read is the tree that was written. -/
theorem C75_plain {F : Floats} {st : Style} (hst : st.Fine) (v : V) (hv : Tree F v) : readText F plainHook (text F st 0 v) () = .ok (v, ()) := by
  have := C75_text (hook := plainHook) hst v hv [] [] (by simp [White]) (by simp [White]) ()
  simpa [dec_plain v hv] using this

/-- C75: different trees have different texts, whatever the style of each. -/
theorem C75_injective {F : Floats} {st st' : Style} (hst : st.Fine) (hst' : st'.Fine) (v v' : V) (hv : Tree F v) (hv' : Tree F v')
    (h : text F st 0 v = text F st' 0 v') : v = v' := by
  have h1 := C75_plain hst v hv
  have h2 := C75_plain hst' v' hv'
  rw [h, h2] at h1
  cases h1
  rfl

theorem fine_default : Style.default.Fine := ⟨by simp [Style.default], ⟨[], [' '], rfl, by simp [White], by simp [White]⟩, ⟨[], [' '], rfl, by simp [White], by simp [White]⟩⟩

theorem fine_indented : Style.indented.Fine :=
  ⟨by simp [Style.indented, White], ⟨[], [], rfl, by simp [White], by simp [White]⟩, ⟨[], [' '], rfl, by simp [White], by simp [White]⟩⟩

/-! ## There are such floats -/

/-- Every rational number can be written as a number with a fraction and read again: numerator and denominator around the dot. (`float` and `repr` do so with doubles, in another way.) -/
def someFloats : Floats where
  repr q := intText q.num ++ '.' :: Nat.toDigits 10 q.den
  read l :=
    let a := l.takeWhile (· != '.')
    let n : Int := match a with
      | '-' :: ds => -(Nat.ofDigitChars 10 ds 0 : Int)
      | ds => (Nat.ofDigitChars 10 ds 0 : Int)
    mkRat n (Nat.ofDigitChars 10 (l.drop (a.length + 1)) 0)

theorem someFloats_faithful (q : Rat) : Faithful someFloats q := by
  have hd : ∀ n, Digits (Nat.toDigits 10 n) := fun n =>
    ⟨Nat.toDigits_ne_nil, fun c hc => Nat.isDigit_of_mem_toDigits (by decide) (by decide) hc⟩
  constructor
  · refine ⟨if q.num < 0 then ['-'] else [], Nat.toDigits 10 q.num.natAbs, '.' :: Nat.toDigits 10 q.den, [], ?_, ?_, toDigits_lead _, .inr ⟨_, hd _, rfl⟩, .inl rfl, by simp⟩
    · simp only [someFloats, intText]
      split <;> simp
    · split <;> simp
  · have hnd : ∀ c ∈ intText q.num, (c != '.') = true := by
      intro c hc
      have : c = '-' ∨ c.isDigit = true := by
        unfold intText at hc
        split at hc
        · rcases List.mem_cons.1 hc with rfl | hc
          · exact .inl rfl
          · exact .inr ((hd _).2 c hc)
        · exact .inr ((hd _).2 c hc)
      rcases this with rfl | h
      · decide
      · have := digit_ne h (show ('.' : Char).isDigit = false by decide)
        simpa using this
    have ht : (intText q.num ++ '.' :: Nat.toDigits 10 q.den).takeWhile (· != '.') = intText q.num := by
      rw [List.takeWhile_append_of_pos hnd]
      simp
    have hdr : (intText q.num ++ '.' :: Nat.toDigits 10 q.den).drop ((intText q.num).length + 1) = Nat.toDigits 10 q.den := by
      simp
    simp only [someFloats, ht, hdr, Nat.ofDigitChars_ten_toDigits]
    have hn : (match intText q.num with
        | '-' :: ds => -(Nat.ofDigitChars 10 ds 0 : Int)
        | ds => (Nat.ofDigitChars 10 ds 0 : Int)) = q.num := by
      unfold intText
      split
      · rename_i ds e
        split at e
        · cases e
          rw [Nat.ofDigitChars_ten_toDigits]
          rename_i h
          exact (Int.eq_neg_natAbs_of_nonpos (Int.le_of_lt h)).symm
        · rename_i h
          have : '-' ∈ Nat.toDigits 10 q.num.natAbs := by rw [e]; simp
          exact absurd ((hd _).2 _ this) (by decide)
      · rename_i h0
        split
        · rename_i h
          exact absurd (if_pos h) (h0 _)
        · rename_i h
          rw [Nat.ofDigitChars_ten_toDigits]
          exact Int.natAbs_of_nonneg (Int.not_lt.1 h)
    rw [hn]
    exact Rat.mkRat_self q

/-- a tree with quotes, control characters and characters outside the basic plane, written with and without indentation -/
def sampleTree : V := mkDict [("a\"é😀", .list [.int (-12), .float (5/2), .none]), ("b", mkDict []), ("c", .bool true), ("d", .list []), ("e", .str "x\n\x01")]

example : Tree someFloats sampleTree := by
  refine ⟨⟨["a\"é😀", "b", "c", "d", "e"], rfl, by decide, rfl⟩, ⟨⟨trivial, someFloats_faithful _, trivial, trivial⟩, ⟨⟨[], rfl, by decide, rfl⟩, trivial⟩, trivial, trivial, trivial, trivial⟩⟩

end Verif.JsonText
