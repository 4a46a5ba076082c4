import Verif.Model.Mangle
import Verif.Props.Strings
/-!
# C16: scaling factors survive mangling
-/

set_option linter.unusedSimpArgs false

namespace Verif.Mangle
open Verif.Py Verif.Strings

/-! ## replaceAll -/

theorem replaceAll_not_infix (p r s : List Char) (h : ¬ p <:+: s) : replaceAll p r s = s := by
  induction s with
  | nil => rw [replaceAll]
  | cons c cs ih =>
    rw [replaceAll]
    have h1 : ¬ (p.isPrefixOf (c :: cs) = true) := fun hp =>
      h (List.IsPrefix.isInfix (List.isPrefixOf_iff_prefix.mp hp))
    have h2 : ¬ p <:+: cs := fun hi => h (hi.trans (List.suffix_cons c cs).isInfix)
    rw [if_neg (fun hh => h1 hh.2), ih h2]

theorem count_replaceAll (p r : List Char) (hr : r.count '_' = 0) : ∀ (n : Nat) (s : List Char), s.length ≤ n →
    (replaceAll p r s).count '_' ≤ s.count '_' ∧
    (p ≠ [] → 0 < p.count '_' → p <:+: s → (replaceAll p r s).count '_' < s.count '_') := by
  intro n
  induction n with
  | zero =>
    intro s hs
    have : s = [] := List.length_eq_zero_iff.mp (by omega)
    subst this
    rw [replaceAll]
    exact ⟨Nat.le_refl _, fun hp _ hi => absurd (List.infix_nil.mp hi) hp⟩
  | succ n ih =>
    intro s hs
    cases s with
    | nil =>
      rw [replaceAll]
      exact ⟨Nat.le_refl _, fun hp _ hi => absurd (List.infix_nil.mp hi) hp⟩
    | cons c cs =>
      rw [replaceAll]
      by_cases hm : p ≠ [] ∧ p.isPrefixOf (c :: cs) = true
      · rw [if_pos hm]
        obtain ⟨t, ht⟩ := List.isPrefixOf_iff_prefix.mp hm.2
        have hlen : 0 < p.length := List.length_pos_iff.mpr hm.1
        have hd : (c :: cs).drop p.length = t := by rw [← ht]; simp
        rw [hd]
        have hlt : t.length ≤ n := by
          have := congrArg List.length ht
          simp only [List.length_append, List.length_cons] at this hs
          omega
        have := (ih t hlt).1
        rw [← ht]
        simp only [List.count_append]
        constructor
        · omega
        · intro _ hp _; omega
      · rw [if_neg hm]
        have hlt : cs.length ≤ n := by simp only [List.length_cons] at hs; omega
        obtain ⟨h1, h2⟩ := ih cs hlt
        simp only [List.count_cons]
        refine ⟨by omega, ?_⟩
        intro hp hc hi
        have : p <:+: cs := by
          rcases List.infix_cons_iff.mp hi with hpre | hi
          · exact absurd ⟨hp, List.isPrefixOf_iff_prefix.mpr hpre⟩ hm
          · exact hi
        have := h2 hp hc this
        omega

/-! ## The matcher -/

theorem mem_takeWhile_imp' {p : Char → Bool} {l : List Char} {c : Char} (h : c ∈ l.takeWhile p) : p c = true := by
  induction l with
  | nil => simp at h
  | cons a l ih =>
    simp only [List.takeWhile_cons] at h
    split at h
    · rcases List.mem_cons.mp h with rfl | h
      · assumption
      · exact ih h
    · simp at h

theorem takeWhile_append_dropWhile' (p : Char → Bool) (l : List Char) : l.takeWhile p ++ l.dropWhile p = l :=
  List.takeWhile_append_dropWhile

theorem digit_ne_underscore {c : Char} (h : c.isDigit = true) : c ≠ '_' := by
  rintro rfl; exact absurd h (by decide)

theorem count_takeWhile_digit (l : List Char) : (l.takeWhile Char.isDigit).count '_' = 0 := by
  rw [List.count_eq_zero]
  intro h
  have := mem_takeWhile_imp' h
  exact absurd this (by decide)

def fracCode : Option (List Char) → List Char
  | some f => '_' :: f
  | none => []

def expCode : Option (Char × Bool × List Char) → List Char
  | some (e, neg, ds) => e :: ((if neg then ['_'] else []) ++ ds)
  | none => []

/-- the text of a match, read off the groups -/
def Match.text (m : Match) : List Char :=
  '_' :: ((if m.minus then ['_'] else []) ++ m.digits ++
    fracCode m.frac ++ expCode m.exp ++ (if m.space then ['_'] else []))

theorem matchFrac_spec (s : List Char) :
    s = fracCode (matchFrac s).1 ++ (matchFrac s).2 ∧
    ∀ f, (matchFrac s).1 = some f → f.count '_' = 0 := by
  unfold matchFrac
  split
  · rename_i d cs
    split
    · refine ⟨?_, ?_⟩
      · simp only [fracCode, List.cons_append, List.takeWhile_append_dropWhile]
      · intro f hf; injection hf with hf; rw [← hf]; exact count_takeWhile_digit _
    · exact ⟨rfl, fun f hf => by cases hf⟩
  · exact ⟨rfl, fun f hf => by cases hf⟩

theorem matchExp_spec (s : List Char) :
    s = expCode (matchExp s).1 ++ (matchExp s).2 ∧
    ∀ e neg ds, (matchExp s).1 = some (e, neg, ds) → (e = 'e' ∨ e = 'E') ∧ ds.count '_' = 0 := by
  unfold matchExp
  split
  · rename_i e d cs
    split
    · rename_i h
      refine ⟨by simp [expCode, List.takeWhile_append_dropWhile], ?_⟩
      intro e' neg ds hf
      simp only [Option.some.injEq, Prod.mk.injEq] at hf
      obtain ⟨rfl, -, rfl⟩ := hf
      exact ⟨h.1, count_takeWhile_digit _⟩
    · exact ⟨rfl, fun _ _ _ hf => by cases hf⟩
  · rename_i e d cs _
    split
    · rename_i h
      refine ⟨by simp [expCode, List.takeWhile_append_dropWhile], ?_⟩
      intro e' neg ds hf
      simp only [Option.some.injEq, Prod.mk.injEq] at hf
      obtain ⟨rfl, -, rfl⟩ := hf
      exact ⟨h.1, count_takeWhile_digit _⟩
    · exact ⟨rfl, fun _ _ _ hf => by cases hf⟩
  · exact ⟨rfl, fun _ _ _ hf => by cases hf⟩

theorem matchSpace_spec (s : List Char) : s = (if (matchSpace s).1 then ['_'] else []) ++ (matchSpace s).2 := by
  unfold matchSpace
  split
  · split <;> rfl
  · rfl

theorem matchNumber_spec {b : Bool} {cs : List Char} {m : Match} (h : matchNumber b cs = some m) :
    '_' :: ((if b then ['_'] else []) ++ cs) = m.text ++ m.rest ∧ (replacement m).count '_' = 0 ∧
      ∃ d ds, m.digits = d :: ds ∧ d.isDigit = true := by
  unfold matchNumber at h
  simp only at h
  split at h
  · cases h
  · rename_i hne
    obtain ⟨hf1, hf2⟩ := matchFrac_spec (cs.dropWhile Char.isDigit)
    obtain ⟨he1, he2⟩ := matchExp_spec (matchFrac (cs.dropWhile Char.isDigit)).2
    have hs1 := matchSpace_spec (matchExp (matchFrac (cs.dropWhile Char.isDigit)).2).2
    generalize hF : matchFrac (cs.dropWhile Char.isDigit) = F at *
    generalize hE : matchExp F.2 = E at *
    generalize hS : matchSpace E.2 = S at *
    injection h with h
    subst h
    refine ⟨?_, ?_, ?_⟩
    · have e : cs = cs.takeWhile Char.isDigit ++ cs.dropWhile Char.isDigit := by simp
      simp only [Match.text, List.cons_append, List.append_assoc, List.cons.injEq, true_and]
      rw [← hs1, ← he1, ← hf1]
      simp
    · have h3 : (if b then ['-'] else []).count '_' = 0 := by cases b <;> decide
      have h4 : (if S.1 then [' '] else []).count '_' = 0 := by cases S.1 <;> decide
      have h1 : ∀ x : Option (List Char), x = F.1 → (match x with | some f => '.' :: f | none => []).count '_' = 0 := by
        intro x hx
        cases x with
        | none => rfl
        | some f => simp [hf2 f hx.symm]
      have h2 : ∀ x : Option (Char × Bool × List Char), x = E.1 →
          (match x with | some (e, neg, ds) => e :: ((if neg then ['-'] else []) ++ ds) | none => []).count '_' = 0 := by
        intro x hx
        cases x with
        | none => rfl
        | some y =>
          obtain ⟨e, neg, ds⟩ := y
          obtain ⟨ha, hb⟩ := he2 e neg ds hx.symm
          rcases ha with rfl | rfl <;> cases neg <;> simp [hb]
      have h1' := h1 _ rfl
      have h2' := h2 _ rfl
      unfold replacement
      simp only [List.count_append, count_takeWhile_digit, h3, h4, Nat.zero_add, Nat.add_zero]
      exact Nat.add_eq_zero_iff.mpr ⟨h1', h2'⟩
    · cases hd : cs.takeWhile Char.isDigit with
      | nil => exact absurd hd hne
      | cons d ds =>
        refine ⟨d, ds, rfl, ?_⟩
        have : d ∈ cs.takeWhile Char.isDigit := by rw [hd]; simp
        exact mem_takeWhile_imp' this

theorem matchHere_spec {s : List Char} {m : Match} (h : matchHere s = some m) :
    s = m.text ++ m.rest ∧ (replacement m).count '_' = 0 ∧ ∃ d ds, m.digits = d :: ds ∧ d.isDigit = true := by
  unfold matchHere at h
  split at h
  · exact matchNumber_spec (b := true) h
  · exact matchNumber_spec (b := false) h
  · cases h

theorem search_spec {prev : Bool} {s : List Char} {t : List Char} {m : Match} (h : search prev s = some (t, m)) :
    ∃ a, s = a ++ m.text ++ m.rest ∧ t = m.text ∧ (replacement m).count '_' = 0 ∧
      ∃ d ds, m.digits = d :: ds ∧ d.isDigit = true := by
  induction s generalizing prev with
  | nil => cases h
  | cons c cs ih =>
    simp only [search] at h
    cases hm : (if prev then none else matchHere (c :: cs)) with
    | some m' =>
      simp only [hm, Option.some.injEq, Prod.mk.injEq] at h
      obtain ⟨h1, rfl⟩ := h
      cases prev with
      | true => cases hm
      | false =>
        obtain ⟨h2, h3, h4⟩ := matchHere_spec hm
        refine ⟨[], by simpa using h2, ?_, h3, h4⟩
        rw [← h1, h2]
        simp
    | none =>
      simp only [hm] at h
      obtain ⟨a, h1, h2⟩ := ih h
      exact ⟨c :: a, by rw [h1]; simp, h2⟩

/-- one round removes an underscore -/
theorem round_decreases {s t : List Char} {m : Match} (h : search false s = some (t, m)) :
    underscores (replaceAll t (replacement m) s) < underscores s := by
  obtain ⟨a, h1, h2, h3, -⟩ := search_spec h
  have hcount : 0 < t.count '_' := by rw [h2]; simp [Match.text]
  refine (count_replaceAll t (replacement m) h3 _ s (Nat.le_refl _)).2 ?_ hcount ⟨a, m.rest, ?_⟩
  · rw [h2]; simp [Match.text]
  · rw [h1, h2]

theorem unmangleFuel_total (n : Nat) (s : List Char) (h : underscores s ≤ n) : ∃ r, unmangleFuel n s = some r ∧ search false r = none := by
  induction n generalizing s with
  | zero =>
    unfold unmangleFuel
    cases hs : search false s with
    | none => exact ⟨s, rfl, hs⟩
    | some x => have := round_decreases (t := x.1) (m := x.2) hs; omega
  | succ n ih =>
    unfold unmangleFuel
    cases hs : search false s with
    | none => exact ⟨s, rfl, hs⟩
    | some x =>
      have := round_decreases (t := x.1) (m := x.2) hs
      exact ih _ (by omega)

theorem unmangleFuel_mono (n m : Nat) (s r : List Char) (h : unmangleFuel n s = some r) (hle : n ≤ m) : unmangleFuel m s = some r := by
  induction n generalizing s m with
  | zero =>
    unfold unmangleFuel at h
    cases hs : search false s with
    | none => cases m <;> simp_all [unmangleFuel]
    | some x => simp [hs] at h
  | succ n ih =>
    obtain ⟨m, rfl⟩ : ∃ k, m = k + 1 := ⟨m - 1, by omega⟩
    unfold unmangleFuel at h ⊢
    cases hs : search false s with
    | none => simp_all
    | some x =>
      simp only [hs] at h ⊢
      exact ih _ _ h (by omega)

/-! ## Specification: numerals -/

/-- a decimal numeral: sign, integral digits, fractional digits, exponent (letter, sign, digits) -/
structure Numeral where
  neg : Bool
  int : List Char
  frac : Option (List Char)
  exp : Option (Char × Bool × List Char)

/-- digits on both sides of a dot, digits after the exponent letter -/
def Numeral.WF (n : Numeral) : Prop :=
  n.int ≠ [] ∧ (∀ c ∈ n.int, c.isDigit = true) ∧
  (∀ f, n.frac = some f → f ≠ [] ∧ ∀ c ∈ f, c.isDigit = true) ∧
  (∀ e s ds, n.exp = some (e, s, ds) → (e = 'e' ∨ e = 'E') ∧ ds ≠ [] ∧ ∀ c ∈ ds, c.isDigit = true)

/-- the numeral as usually written -/
def Numeral.text (n : Numeral) : List Char :=
  (if n.neg then ['-'] else []) ++ n.int ++
    (match n.frac with | some f => '.' :: f | none => []) ++
    (match n.exp with | some (e, s, ds) => e :: ((if s then ['-'] else []) ++ ds) | none => [])

/-- the numeral as an identifier -/
def Numeral.code (n : Numeral) : List Char :=
  '_' :: ((if n.neg then ['_'] else []) ++ n.int ++ fracCode n.frac ++ expCode n.exp)

/-- an underscore followed by a digit occurs -/
def HasCode (s : List Char) : Prop := ∃ d, d.isDigit = true ∧ ['_', d] <:+: s

/-- the string does not begin with a word character -/
def WordEnds (s : List Char) : Prop := ∀ c cs, s = c :: cs → isWord c = false

/-- the string does not end with a word character -/
def WordStarts (s : List Char) : Prop := ∀ c cs, s = cs ++ [c] → isWord c = false

/-- a coded number stands at the beginning of a word -/
def Coded (s : List Char) : Prop :=
  ∃ a b, s = a ++ '_' :: b ∧ WordStarts a ∧ ∃ d t, d.isDigit = true ∧ (b = d :: t ∨ b = '_' :: d :: t)

/-! ### No code, no match -/

theorem matchNumber_none {b : Bool} {cs : List Char} (h : matchNumber b cs = none) : ∀ d t, cs = d :: t → d.isDigit = false := by
  intro d t e
  subst e
  unfold matchNumber at h
  simp only at h
  split at h
  · rename_i h1
    cases hd : d.isDigit with
    | false => rfl
    | true => simp [List.takeWhile_cons, hd] at h1
  · cases h

theorem matchNumber_isSome {b : Bool} {d : Char} {t : List Char} (h : d.isDigit = true) : ∃ m, matchNumber b (d :: t) = some m := by
  cases hm : matchNumber b (d :: t) with
  | some m => exact ⟨m, rfl⟩
  | none => have := matchNumber_none hm d t rfl; simp [h] at this

theorem matchHere_iff (s : List Char) :
    (∃ m, matchHere s = some m) ↔ ∃ b, s = '_' :: b ∧ ∃ d t, d.isDigit = true ∧ (b = d :: t ∨ b = '_' :: d :: t) := by
  constructor
  · rintro ⟨m, h⟩
    obtain ⟨h1, -, d, ds, h2, h3⟩ := matchHere_spec h
    rw [h1]
    simp only [Match.text, h2]
    cases m.minus with
    | true => exact ⟨_, rfl, d, _, h3, Or.inr (by simp; rfl)⟩
    | false => exact ⟨_, rfl, d, _, h3, Or.inl (by simp; rfl)⟩
  · rintro ⟨b, rfl, d, t, hd, rfl | rfl⟩
    · have hne := digit_ne_underscore hd
      obtain ⟨m, hm⟩ := matchNumber_isSome (b := false) (t := t) hd
      refine ⟨m, ?_⟩
      unfold matchHere
      split
      · rename_i heq; simp only [List.cons.injEq] at heq; exact absurd heq.2.1 hne
      · rename_i cs _ heq; simp only [List.cons.injEq, true_and] at heq; rw [← heq]; exact hm
      · rename_i h1 h2; exact absurd rfl (h2 _)
    · exact matchNumber_isSome (b := true) hd

theorem search_none {s : List Char} {prev : Bool} (h : search prev s = none) (a b : List Char) (hs : s = a ++ '_' :: b)
    (ha : a = [] → prev = false) (hw : WordStarts a) : ¬ ∃ d t, d.isDigit = true ∧ (b = d :: t ∨ b = '_' :: d :: t) := by
  induction a generalizing s prev with
  | nil =>
    subst hs
    have := ha rfl
    subst this
    simp only [List.nil_append, search] at h
    cases hm : matchHere ('_' :: b) with
    | some m => simp [hm] at h
    | none =>
      intro hex
      obtain ⟨m, hm'⟩ := (matchHere_iff ('_' :: b)).mpr ⟨b, rfl, hex⟩
      rw [hm] at hm'
      cases hm'
  | cons c a ih =>
    subst hs
    simp only [List.cons_append, search] at h
    split at h
    · cases h
    · refine ih h rfl ?_ ?_
      · rintro rfl
        exact hw c [] rfl
      · intro c' cs e
        exact hw c' (c :: cs) (by rw [e]; rfl)

theorem search_some {s t : List Char} {m : Match} {prev : Bool} (h : search prev s = some (t, m)) :
    ∃ a b, s = a ++ '_' :: b ∧ (a = [] → prev = false) ∧ WordStarts a ∧
      ∃ d t, d.isDigit = true ∧ (b = d :: t ∨ b = '_' :: d :: t) := by
  induction s generalizing prev with
  | nil => cases h
  | cons c cs ih =>
    simp only [search] at h
    cases hm : (if prev then none else matchHere (c :: cs)) with
    | some m' =>
      cases prev with
      | true => cases hm
      | false =>
        obtain ⟨b, hb, hx⟩ := (matchHere_iff (c :: cs)).mp ⟨m', hm⟩
        exact ⟨[], b, by simpa using hb, fun _ => rfl, fun c cs e => by simp at e, hx⟩
    | none =>
      simp only [hm] at h
      obtain ⟨a, b, h1, h2, h3, h4⟩ := ih h
      refine ⟨c :: a, b, by rw [h1]; rfl, (fun e => by cases e), ?_, h4⟩
      intro c' cs' e
      cases cs' with
      | nil =>
        simp only [List.nil_append, List.cons.injEq] at e
        obtain ⟨rfl, rfl⟩ := e
        exact h2 rfl
      | cons x xs =>
        simp only [List.cons_append, List.cons.injEq] at e
        exact h3 c' xs e.2

theorem search_iff (s : List Char) : search false s = none ↔ ¬ Coded s := by
  constructor
  · rintro h ⟨a, b, h1, h2, h3⟩
    exact search_none h a b h1 (fun _ => rfl) h2 h3
  · intro h
    cases hs : search false s with
    | none => rfl
    | some x =>
      obtain ⟨a, b, h1, -, h2, h3⟩ := search_some (t := x.1) (m := x.2) hs
      exact absurd ⟨a, b, h1, h2, h3⟩ h

theorem coded_hasCode {s : List Char} (h : Coded s) : HasCode s := by
  obtain ⟨a, b, rfl, -, d, t, hd, rfl | rfl⟩ := h
  · exact ⟨d, hd, a, t, by simp⟩
  · exact ⟨d, hd, a ++ ['_'], t, by simp⟩

/-! ## C16 -/

/-- C16, decoding always ends, and nothing coded is left at the beginning of a word -/
theorem C16_terminates (s : List Char) : ∃ r, unmangle s = some r ∧ ¬ Coded r ∧ ∀ n, underscores s ≤ n → unmangleFuel n s = some r := by
  obtain ⟨r, h1, h2⟩ := unmangleFuel_total (underscores s) s (Nat.le_refl _)
  exact ⟨r, h1, (search_iff r).mp h2, fun n hn => unmangleFuel_mono _ _ _ _ h1 hn⟩

/-- C16, an expression in which nothing is coded is left unchanged -/
theorem C16_unchanged (s : List Char) (h : ¬ Coded s) : unmangle s = some s := by
  unfold unmangle
  have := (search_iff s).mpr h
  cases hn : underscores s <;> simp [unmangleFuel, this]

example : ¬ Coded ['m', '_', '2', ' ', '_', 'x', ' ', '/', ' ', '_', '_'] := by
  rw [← search_iff]
  decide

/-! ### One coded numeral -/

/-- does not begin with a digit -/
def NoDigit (s : List Char) : Prop := ∀ c cs, s = c :: cs → c.isDigit = false

theorem takeWhile_digits (ds r : List Char) (h : ∀ c ∈ ds, c.isDigit = true) (hr : NoDigit r) :
    (ds ++ r).takeWhile Char.isDigit = ds ∧ (ds ++ r).dropWhile Char.isDigit = r := by
  induction ds with
  | nil =>
    cases r with
    | nil => exact ⟨rfl, rfl⟩
    | cons c cs => have := hr c cs rfl; simp [List.takeWhile_cons, List.dropWhile_cons, this]
  | cons d ds ih =>
    have hd := h d (by simp)
    obtain ⟨h1, h2⟩ := ih (fun c hc => h c (by simp [hc]))
    simp [List.takeWhile_cons, List.dropWhile_cons, hd, h1, h2]

/-- does not begin with an underscore and a digit -/
def NoCodeHead (s : List Char) : Prop := ∀ c cs, s = '_' :: c :: cs → c.isDigit = false

theorem matchFrac_code (f : Option (List Char)) (r : List Char)
    (hf : ∀ x, f = some x → x ≠ [] ∧ ∀ c ∈ x, c.isDigit = true) (hr : NoDigit r) (hc : NoCodeHead r) :
    matchFrac (fracCode f ++ r) = (f, r) := by
  cases f with
  | none =>
    simp only [fracCode, List.nil_append]
    unfold matchFrac
    split
    · rename_i d cs; rw [hc d cs rfl]; rfl
    · rfl
  | some x =>
    obtain ⟨h1, h2⟩ := hf x rfl
    obtain ⟨h3, h4⟩ := takeWhile_digits x r h2 hr
    cases x with
    | nil => exact absurd rfl h1
    | cons d x =>
      have hd := h2 d (by simp)
      simp only [fracCode, List.cons_append, matchFrac, hd, if_true] at *
      rw [h3, h4]

/-- does not begin with an exponent -/
def NoExpHead (s : List Char) : Prop := ∀ c cs, s = c :: cs → ¬ (c = 'e' ∨ c = 'E')

theorem matchExp_code (x : Option (Char × Bool × List Char)) (r : List Char)
    (hx : ∀ e s ds, x = some (e, s, ds) → (e = 'e' ∨ e = 'E') ∧ ds ≠ [] ∧ ∀ c ∈ ds, c.isDigit = true)
    (hr : NoDigit r) (hc : NoExpHead r) : matchExp (expCode x ++ r) = (x, r) := by
  cases x with
  | none =>
    simp only [expCode, List.nil_append]
    unfold matchExp
    split
    · rename_i e d cs; rw [if_neg (fun h => hc _ _ rfl h.1)]
    · rename_i e d cs _; rw [if_neg (fun h => hc _ _ rfl h.1)]
    · rfl
  | some y =>
    obtain ⟨e, s, ds⟩ := y
    obtain ⟨h0, h1, h2⟩ := hx e s ds rfl
    obtain ⟨h3, h4⟩ := takeWhile_digits ds r h2 hr
    cases ds with
    | nil => exact absurd rfl h1
    | cons d ds =>
      have hd := h2 d (by simp)
      have hne := digit_ne_underscore hd
      cases s with
      | true =>
        simp only [expCode, if_true, List.cons_append, List.nil_append, matchExp, hd, h0, and_self] at *
        rw [h3, h4]
      | false =>
        simp only [expCode, Bool.false_eq_true, if_false, List.cons_append, List.nil_append] at *
        unfold matchExp
        split
        · rename_i heq; simp only [List.cons.injEq] at heq; exact absurd heq.2.1 hne
        · rename_i e' d' cs' _ heq
          simp only [List.cons.injEq] at heq
          obtain ⟨rfl, rfl, rfl⟩ := heq
          rw [if_pos ⟨h0, hd⟩, h3, h4]
        · rename_i h1 h2; exact absurd rfl (h2 _ _ _)

theorem expCode_noDigit (n : Numeral) (h : n.WF) (r : List Char) (hr : NoDigit r) : NoDigit (expCode n.exp ++ r) := by
  cases hx : n.exp with
  | none => exact hr
  | some y =>
    obtain ⟨e, s, ds⟩ := y
    intro c cs hcs
    simp only [expCode, List.cons_append, List.cons.injEq] at hcs
    rw [← hcs.1]
    rcases (h.2.2.2 e s ds hx).1 with rfl | rfl <;> decide

theorem expCode_noCodeHead (n : Numeral) (h : n.WF) (r : List Char) (hr : NoCodeHead r) : NoCodeHead (expCode n.exp ++ r) := by
  cases hx : n.exp with
  | none => exact hr
  | some y =>
    obtain ⟨e, s, ds⟩ := y
    intro c cs hcs
    simp only [expCode, List.cons_append, List.cons.injEq] at hcs
    rcases (h.2.2.2 e s ds hx).1 with rfl | rfl <;> exact absurd hcs.1 (by decide)

theorem fracCode_noDigit (f : Option (List Char)) (r : List Char) (hr : NoDigit r) : NoDigit (fracCode f ++ r) := by
  cases f with
  | none => exact hr
  | some y =>
    intro c cs hcs
    simp only [fracCode, List.cons_append, List.cons.injEq] at hcs
    rw [← hcs.1]
    decide

theorem matchHere_code (n : Numeral) (h : n.WF) (r : List Char) (h1 : NoDigit r) (h2 : NoCodeHead r) (h3 : NoExpHead r) :
    matchHere (n.code ++ r) = some ⟨n.neg, n.int, n.frac, n.exp, (matchSpace r).1, (matchSpace r).2⟩ := by
  have hE1 := expCode_noDigit n h r h1
  have hE2 := expCode_noCodeHead n h r h2
  have hE := matchExp_code n.exp r h.2.2.2 h1 h3
  have hF := matchFrac_code n.frac (expCode n.exp ++ r) h.2.2.1 hE1 hE2
  obtain ⟨hI1, hI2⟩ := takeWhile_digits n.int (fracCode n.frac ++ (expCode n.exp ++ r)) h.2.1 (fracCode_noDigit _ _ hE1)
  have key : ∀ b, matchNumber b (n.int ++ (fracCode n.frac ++ (expCode n.exp ++ r))) =
      some ⟨b, n.int, n.frac, n.exp, (matchSpace r).1, (matchSpace r).2⟩ := by
    intro b
    unfold matchNumber
    simp only [hI1, hI2, hF, hE, if_neg h.1]
  cases hn : n.neg with
  | true =>
    simp only [Numeral.code, hn, if_true, List.cons_append, List.nil_append, List.append_assoc, matchHere]
    exact key true
  | false =>
    cases hi : n.int with
    | nil => exact absurd hi h.1
    | cons d ds =>
      have hd := h.2.1 d (by rw [hi]; simp)
      have hne := digit_ne_underscore hd
      have key' := key false
      rw [hi] at key'
      simp only [Numeral.code, hn, hi, Bool.false_eq_true, if_false, List.cons_append, List.nil_append, List.append_assoc] at key' ⊢
      unfold matchHere
      split
      · rename_i heq; simp only [List.cons.injEq] at heq; exact absurd heq.2.1 hne
      · rename_i cs _ heq; simp only [List.cons.injEq, true_and] at heq; rw [← heq]; exact key'
      · rename_i h1 h2; exact absurd rfl (h2 _)

theorem head_not_code {pre s b : List Char} (hne : pre ≠ []) (h : ¬ HasCode pre) (hw : WordStarts pre)
    (hb : pre ++ s = '_' :: b) : ¬ ∃ d t, d.isDigit = true ∧ (b = d :: t ∨ b = '_' :: d :: t) := by
  rintro ⟨d, t, hd, hx⟩
  cases pre with
  | nil => exact hne rfl
  | cons c pre =>
    simp only [List.cons_append, List.cons.injEq] at hb
    obtain ⟨rfl, hb⟩ := hb
    cases pre with
    | nil => exact absurd (hw '_' [] rfl) (by decide)
    | cons c2 pre =>
      rcases hx with hx | hx
      · rw [hx] at hb
        simp only [List.cons_append, List.cons.injEq] at hb
        exact h ⟨d, hd, [], pre, by rw [hb.1]; rfl⟩
      · rw [hx] at hb
        simp only [List.cons_append, List.cons.injEq] at hb
        obtain ⟨rfl, hb⟩ := hb
        cases pre with
        | nil => exact absurd (hw '_' ['_'] rfl) (by decide)
        | cons c3 pre =>
          simp only [List.cons_append, List.cons.injEq] at hb
          exact h ⟨d, hd, ['_'], pre, by rw [hb.1]; rfl⟩

theorem tail_noCode {c : Char} {pre : List Char} (h : ¬ HasCode (c :: pre)) : ¬ HasCode pre := by
  rintro ⟨d, hd, a, b, e⟩
  exact h ⟨d, hd, c :: a, b, by rw [← e]; rfl⟩

theorem tail_wordStarts {c : Char} {pre : List Char} (h : WordStarts (c :: pre)) : WordStarts pre := by
  intro c' cs e
  exact h c' (c :: cs) (by rw [e]; rfl)

theorem search_skip (pre s : List Char) (prev : Bool) (hp : prev = false ∨ pre ≠ []) (h : ¬ HasCode pre) (hw : WordStarts pre) :
    search prev (pre ++ s) = search false s := by
  induction pre generalizing prev with
  | nil =>
    rcases hp with rfl | hp
    · rfl
    · exact absurd rfl hp
  | cons c pre ih =>
    have hno : (if prev then none else matchHere (c :: (pre ++ s))) = none := by
      cases hm : (if prev then none else matchHere (c :: (pre ++ s))) with
      | none => rfl
      | some m =>
        cases prev with
        | true => cases hm
        | false =>
          obtain ⟨b, hb, hx⟩ := (matchHere_iff _).mp ⟨m, hm⟩
          exact absurd hx (head_not_code (pre := c :: pre) (by simp) h hw hb)
    simp only [List.cons_append, search, hno]
    refine ih _ ?_ (tail_noCode h) (tail_wordStarts hw)
    cases pre with
    | nil => exact Or.inl (hw c [] rfl)
    | cons a b => exact Or.inr (by simp)

/-- the only occurrence of `p` is replaced -/
theorem replaceAll_once (p r pre rest : List Char) (hp : p ≠ [])
    (h : ∀ a b, pre = a ++ b → b ≠ [] → ¬ p <+: b ++ (p ++ rest)) (hr : ¬ p <:+: rest) :
    replaceAll p r (pre ++ (p ++ rest)) = pre ++ (r ++ rest) := by
  induction pre with
  | nil => rw [List.nil_append, List.nil_append, replaceAll_prefix _ _ _ hp, replaceAll_not_infix _ _ _ hr]
  | cons c pre ih =>
    have h0 := h [] (c :: pre) rfl (by simp)
    rw [List.cons_append, replaceAll, if_neg, List.cons_append, ih]
    · intro a b e hb
      exact h (c :: a) b (by rw [e]; rfl) hb
    · intro hh
      exact h0 (List.isPrefixOf_iff_prefix.mp hh.2)

theorem hasCode_append {a b : List Char} (h : HasCode (a ++ b)) :
    HasCode a ∨ HasCode b ∨ (∃ a' d b', a = a' ++ ['_'] ∧ b = d :: b' ∧ d.isDigit = true) := by
  obtain ⟨d, hd, x, y, e⟩ := h
  induction a generalizing x with
  | nil => exact Or.inr (Or.inl ⟨d, hd, x, y, e⟩)
  | cons c a ih =>
    cases x with
    | nil =>
      simp only [List.nil_append, List.cons_append, List.cons.injEq] at e
      obtain ⟨rfl, e⟩ := e
      cases a with
      | nil => exact Or.inr (Or.inr ⟨[], d, y, rfl, e.symm, hd⟩)
      | cons c2 a =>
        simp only [List.cons_append, List.cons.injEq] at e
        exact Or.inl ⟨d, hd, [], a, by rw [e.1]; rfl⟩
    | cons z x =>
      simp only [List.cons_append, List.cons.injEq] at e
      rcases ih x (by simpa using e.2) with h | h | ⟨a', d', b', h1, h2, h3⟩
      · obtain ⟨d', hd', x', y', e'⟩ := h
        exact Or.inl ⟨d', hd', c :: x', y', by rw [← e']; rfl⟩
      · exact Or.inr (Or.inl h)
      · exact Or.inr (Or.inr ⟨c :: a', d', b', by rw [h1]; rfl, h2, h3⟩)

theorem noCode_of_count {a : List Char} (h : a.count '_' = 0) : ¬ HasCode a := by
  rintro ⟨d, hd, x, y, e⟩
  rw [← e] at h
  simp [List.count_append, List.count_cons] at h

/-- the text of the replacement is the numeral -/
theorem replacement_text (n : Numeral) (b : Bool) (r : List Char) :
    replacement ⟨n.neg, n.int, n.frac, n.exp, b, r⟩ = n.text ++ (if b then [' '] else []) := rfl

theorem unmangle_step {s t r : List Char} {m : Match} (h : search false s = some (t, m)) (hr : replaceAll t (replacement m) s = r)
    (hn : ¬ Coded r) : unmangle s = some r := by
  have hlt := round_decreases h
  unfold unmangle
  obtain ⟨k, hk⟩ : ∃ k, underscores s = k + 1 := ⟨underscores s - 1, by omega⟩
  rw [hk]
  unfold unmangleFuel
  simp only [h, hr]
  have := (search_iff r).mpr hn
  cases k <;> simp [unmangleFuel, this]

/-- decoding a string with one coded numeral; `rest` is what follows the match -/
theorem unmangle_code (n : Numeral) (h : n.WF) (pre tail : List Char) (hp : ¬ HasCode pre) (hw : WordStarts pre)
    (h1 : NoDigit tail) (h2 : NoCodeHead tail) (h3 : NoExpHead tail) (hr : ¬ HasCode (matchSpace tail).2) :
    unmangle (pre ++ (n.code ++ tail)) =
      some (pre ++ (n.text ++ (if (matchSpace tail).1 then [' '] else []) ++ (matchSpace tail).2)) := by
  have hm := matchHere_code n h tail h1 h2 h3
  have hsp := matchSpace_spec tail
  obtain ⟨d, ds, hi⟩ : ∃ d ds, n.int = d :: ds := by
    cases hi : n.int with
    | nil => exact absurd hi h.1
    | cons d ds => exact ⟨d, ds, rfl⟩
  have hd : d.isDigit = true := h.2.1 d (by rw [hi]; simp)
  generalize hM : (⟨n.neg, n.int, n.frac, n.exp, (matchSpace tail).1, (matchSpace tail).2⟩ : Match) = M at hm
  have hMt : M.text = n.code ++ (if (matchSpace tail).1 then ['_'] else []) := by
    rw [← hM]; simp [Match.text, Numeral.code]
  have hMr : replacement M = n.text ++ (if (matchSpace tail).1 then [' '] else []) := by
    rw [← hM]; exact replacement_text _ _ _
  have hwhole : n.code ++ tail = M.text ++ (matchSpace tail).2 := by
    rw [hMt, List.append_assoc, ← hsp]
  obtain ⟨b, hb, d', t', hd', hx⟩ := (matchHere_iff _).mp ⟨M, hm⟩
  have hsearch : search false (pre ++ (n.code ++ tail)) = some (M.text, M) := by
    rw [search_skip pre _ false (Or.inl rfl) hp hw, hb]
    simp only [search]
    rw [← hb, hm]
    simp only [Bool.false_eq_true, if_false, Option.some.injEq, Prod.mk.injEq, and_true]
    have : M.rest = (matchSpace tail).2 := by rw [← hM]
    rw [this, hwhole]
    simp
  have hcode : HasCode M.text := by
    rw [hMt]
    simp only [Numeral.code, hi]
    cases n.neg with
    | true => exact ⟨d, hd, ['_'], ds ++ fracCode n.frac ++ expCode n.exp ++ (if (matchSpace tail).1 then ['_'] else []), by simp⟩
    | false => exact ⟨d, hd, [], ds ++ fracCode n.frac ++ expCode n.exp ++ (if (matchSpace tail).1 then ['_'] else []), by simp⟩
  have hinf : ∀ s, M.text <:+: s → HasCode s := by
    rintro s hs
    obtain ⟨d, hd, hc⟩ := hcode
    exact ⟨d, hd, hc.trans hs⟩
  have hrepc : (replacement M).count '_' = 0 := (matchHere_spec hm).2.1
  refine unmangle_step hsearch (r := pre ++ (n.text ++ (if (matchSpace tail).1 then [' '] else []) ++ (matchSpace tail).2)) ?_ ?_
  · rw [hwhole, ← hMr]
    refine replaceAll_once _ _ _ _ (by rw [hMt]; simp [Numeral.code]) ?_ (fun hc => hr (hinf _ hc))
    intro a c e hc hpre
    obtain ⟨t, ht⟩ := hpre
    have hpc : ¬ HasCode c := by
      rintro ⟨d, hd, x, y, e'⟩
      exact hp ⟨d, hd, a ++ x, y, by rw [e, ← e']; simp⟩
    have hwc : WordStarts c := by
      intro c' cs e'
      exact hw c' (a ++ cs) (by rw [e, e']; simp)
    have hb' : ∃ b', c ++ (M.text ++ (matchSpace tail).2) = '_' :: b' ∧ ∃ d t, d.isDigit = true ∧ (b' = d :: t ∨ b' = '_' :: d :: t) := by
      rw [← ht, hMt]
      simp only [Numeral.code, hi]
      cases n.neg with
      | true => exact ⟨_, rfl, d, _, hd, Or.inr (by simp; rfl)⟩
      | false => exact ⟨_, rfl, d, _, hd, Or.inl (by simp; rfl)⟩
    obtain ⟨b', hb1, hb2⟩ := hb'
    exact head_not_code hc hpc hwc hb1 hb2
  · intro hC
    have hC := coded_hasCode hC
    rw [← hMr] at hC
    rcases hasCode_append hC with hC | hC | ⟨a', d', b', e1, -, -⟩
    · exact hp hC
    · rcases hasCode_append hC with hC | hC | ⟨a', d', b', e1, -, -⟩
      · exact noCode_of_count hrepc hC
      · exact hr hC
      · rw [e1] at hrepc
        simp [List.count_append] at hrepc
    · exact absurd (hw '_' a' e1) (by decide)

/-! ### Written numerals -/

/-- without plus signs and white space -/
def squeeze (s : List Char) : List Char := s.filter (fun c => !(c ∈ ['+', ' ', '\t', '\n', '\r', '\x0b', '\x0c']))

/-- `s` is `t` with underscores between digits -/
def Separated (s t : List Char) : Prop :=
  s.filter (fun c => !(c == '_')) = t ∧
  ∀ a b, s = a ++ '_' :: b → (∃ x a', a = a' ++ [x] ∧ x.isDigit = true) ∧ (∃ y b', b = y :: b' ∧ y.isDigit = true)

theorem dropPlusSpace_eq (s : List Char) : dropPlusSpace s = squeeze s := by
  unfold dropPlusSpace squeeze
  congr 1
  funext c
  simp only [isSpace, List.mem_cons, List.not_mem_nil, or_false]
  by_cases h : c = '+' ∨ c = ' ' ∨ c = '\t' ∨ c = '\n' ∨ c = '\r' ∨ c = '\x0b' ∨ c = '\x0c'
  · rcases h with rfl | rfl | rfl | rfl | rfl | rfl | rfl <;> decide
  · simp_all

theorem dropSeparators_noCode (s : List Char) (b : Bool) (h : ¬ HasCode s) : dropSeparators b s = s := by
  induction s generalizing b with
  | nil => rfl
  | cons c cs ih =>
    simp only [dropSeparators]
    rw [if_neg, ih _ (tail_noCode h)]
    intro hc
    simp only [Bool.and_eq_true, decide_eq_true_eq] at hc
    obtain ⟨⟨rfl, -⟩, hc⟩ := hc
    cases cs with
    | nil => simp at hc
    | cons d cs => exact h ⟨d, hc, [], cs, rfl⟩

/-- the last character is a digit -/
def endsDigit (s : List Char) : Bool := match s.getLast? with | some c => c.isDigit | none => false

theorem dropSeparators_append (s u : List Char) (b : Bool)
    (h : ∀ x y, s = x ++ '_' :: y → ((x = [] ∧ b = true) ∨ ∃ c x', x = x' ++ [c] ∧ c.isDigit = true) ∧ (∃ d y', y = d :: y' ∧ d.isDigit = true)) :
    ∃ b', dropSeparators b (s ++ u) = s.filter (fun c => !(c == '_')) ++ dropSeparators b' u := by
  induction s generalizing b with
  | nil => exact ⟨b, rfl⟩
  | cons c s ih =>
    simp only [List.cons_append, dropSeparators]
    by_cases hc : c = '_'
    · subst hc
      obtain ⟨h1, d, y', rfl, hd⟩ := h [] s rfl
      have hb : b = true := by
        rcases h1 with ⟨-, hb⟩ | ⟨c, x', e, -⟩
        · exact hb
        · simp at e
      subst hb
      rw [if_pos (by simp [hd])]
      have := ih false (by
        intro x y e
        obtain ⟨h1, h2⟩ := h ('_' :: x) y (by rw [e]; rfl)
        refine ⟨?_, h2⟩
        rcases h1 with ⟨e', -⟩ | ⟨c, x', e', hc⟩
        · cases e'
        · cases x' with
          | nil =>
            simp only [List.nil_append, List.cons.injEq] at e'
            rw [← e'.1] at hc
            exact absurd hc (by decide)
          | cons z x' =>
            simp only [List.cons_append, List.cons.injEq] at e'
            exact Or.inr ⟨c, x', e'.2, hc⟩)
      obtain ⟨b', hb'⟩ := this
      exact ⟨b', by rw [hb']; simp⟩
    · rw [if_neg (by simp [hc])]
      obtain ⟨b', hb'⟩ := ih c.isDigit (by
        intro x y e
        obtain ⟨h1, h2⟩ := h (c :: x) y (by rw [e]; rfl)
        refine ⟨?_, h2⟩
        rcases h1 with ⟨e', -⟩ | ⟨c', x', e', hc'⟩
        · cases e'
        · cases x' with
          | nil =>
            simp only [List.nil_append, List.cons.injEq] at e'
            obtain ⟨rfl, rfl⟩ := e'
            exact Or.inl ⟨rfl, hc'⟩
          | cons z x' =>
            simp only [List.cons_append, List.cons.injEq] at e'
            exact Or.inr ⟨c', x', e'.2, hc'⟩)
      exact ⟨b', by rw [hb']; simp [hc]⟩

theorem stripTerm_eq (term a u t : List Char) (hs : squeeze term = a ++ u) (hm : ¬ ['-', '-'] <:+: squeeze term)
    (ha : Separated a t) (hu : ¬ HasCode u) : stripTerm term = t ++ u := by
  unfold stripTerm
  rw [dropPlusSpace_eq, replaceAll_not_infix _ _ _ hm, hs]
  obtain ⟨b', hb'⟩ := dropSeparators_append a u false (by
    intro x y e
    obtain ⟨h1, h2⟩ := ha.2 x y e
    refine ⟨Or.inr ?_, h2⟩
    obtain ⟨c, x', e1, e2⟩ := h1
    exact ⟨c, x', e1, e2⟩)
  rw [hb', ha.1, dropSeparators_noCode _ _ hu]

theorem underscore_text (n : Numeral) (h : n.WF) (r : List Char) : '_' :: underscore (n.text ++ r) = n.code ++ underscore r := by
  have hd : ∀ l : List Char, (∀ c ∈ l, c.isDigit = true) → underscore l = l := by
    intro l hl
    unfold underscore
    conv => rhs; rw [← List.map_id l]
    apply List.map_congr_left
    intro c hc
    have := hl c hc
    rw [if_neg, id]
    rintro (rfl | rfl) <;> exact absurd this (by decide)
  have ha : ∀ a b, underscore (a ++ b) = underscore a ++ underscore b := fun a b => List.map_append
  have hc : ∀ c b, underscore (c :: b) = (if c = '-' ∨ c = '.' then '_' else c) :: underscore b := fun c b => rfl
  unfold Numeral.text Numeral.code
  simp only [ha]
  rw [hd n.int h.2.1]
  have e1 : underscore (match n.frac with | some f => '.' :: f | none => []) = fracCode n.frac := by
    cases hf : n.frac with
    | none => rfl
    | some f => simp [hc, fracCode, hd f (h.2.2.1 f hf).2]
  have e2 : underscore (match n.exp with | some (e, s, ds) => e :: ((if s then ['-'] else []) ++ ds) | none => []) = expCode n.exp := by
    cases hf : n.exp with
    | none => rfl
    | some y =>
      obtain ⟨e, s, ds⟩ := y
      obtain ⟨he, -, hds⟩ := h.2.2.2 e s ds hf
      rcases he with rfl | rfl <;> cases s <;> simp [hc, expCode, hd ds hds]
  rw [e1, e2]
  cases n.neg <;> simp [underscore]

theorem text_noUnderscore (n : Numeral) (h : n.WF) : '_' ∉ n.text := by
  have hd : ∀ l : List Char, (∀ c ∈ l, c.isDigit = true) → '_' ∉ l := fun l hl hm => absurd (hl _ hm) (by decide)
  unfold Numeral.text
  simp only [List.mem_append, not_or]
  refine ⟨⟨⟨?_, hd _ h.2.1⟩, ?_⟩, ?_⟩
  · cases n.neg <;> simp
  · cases hf : n.frac with
    | none => simp
    | some f => simpa using hd f (h.2.2.1 f hf).2
  · cases hf : n.exp with
    | none => simp
    | some y =>
      obtain ⟨e, s, ds⟩ := y
      obtain ⟨he, -, hds⟩ := h.2.2.2 e s ds hf
      rcases he with rfl | rfl <;> cases s <;> simpa using hd ds hds

/-- C16, a scaling factor without unit: coding then decoding gives the number back, wherever the identifier stands. Missing: the
text around may not contain further coded numbers (see the counterexamples), doubled minus signs and numerals without a digit
on either side of the dot are excluded. -/
theorem C16_roundtrip_partial (n : Numeral) (h : n.WF) (term pre post : List Char)
    (hterm : Separated (squeeze term) n.text) (hmm : ¬ ['-', '-'] <:+: squeeze term)
    (hpre : ¬ HasCode pre) (hw : WordStarts pre) (hpost : ¬ HasCode post) (he : WordEnds post) :
    unmangle (pre ++ mangle term none ++ post) = some (pre ++ n.text ++ post) := by
  have h0 : ¬ HasCode ([] : List Char) := noCode_of_count rfl
  have e : mangle term none = n.code := by
    have := stripTerm_eq term (squeeze term) [] n.text (by simp) hmm hterm h0
    simp only [List.append_nil] at this
    simp only [mangle, this]
    have := underscore_text n h []
    simpa [underscore] using this
  have h1 : NoDigit post := by
    intro c cs e
    have := he c cs e
    simp only [isWord, Char.isAlphanum, Bool.or_eq_false_iff] at this
    exact this.1.2
  have h2 : NoCodeHead post := by
    intro c cs e
    have := he _ _ e
    exact absurd this (by decide)
  have h3 : NoExpHead post := by
    rintro c cs e (rfl | rfl) <;> exact absurd (he _ _ e) (by decide)
  have hs : matchSpace post = (false, post) := by
    unfold matchSpace
    split
    · rename_i c cs
      exact absurd (he _ _ rfl) (by decide)
    · rfl
  have := unmangle_code n h pre post hpre hw h1 h2 h3 (by rw [hs]; exact hpost)
  rw [hs] at this
  rw [e]
  simpa using this

theorem word_noMinus {c : Char} (h : isWord c = true) : c ≠ '-' ∧ c ≠ '.' ∧ c ≠ '+' ∧ isSpace c = false := by
  refine ⟨?_, ?_, ?_, ?_⟩
  · rintro rfl; exact absurd h (by decide)
  · rintro rfl; exact absurd h (by decide)
  · rintro rfl; exact absurd h (by decide)
  · cases hs : isSpace c with
    | false => rfl
    | true =>
      simp only [isSpace, Bool.or_eq_true, beq_iff_eq] at hs
      rcases hs with ((((rfl | rfl) | rfl) | rfl) | rfl) | rfl <;> exact absurd h (by decide)

theorem zeroDots_word (u : List Char) (p : Option Char) (h : ∀ c ∈ u, isWord c = true) : zeroDots p u = u := by
  induction u generalizing p with
  | nil => rfl
  | cons c cs ih =>
    have := (word_noMinus (h c (by simp))).2.1
    simp only [zeroDots]
    rw [if_neg (by simp [this]), ih _ (fun c hc => h c (by simp [hc]))]

theorem stripUnit_word (u : List Char) (h : ∀ c ∈ u, isWord c = true) : stripUnit u = u := by
  have h1 : dropPlusSpace u = u := by
    unfold dropPlusSpace
    rw [List.filter_eq_self]
    intro c hc
    obtain ⟨-, -, h3, h4⟩ := word_noMinus (h c hc)
    simp [h3, h4]
  unfold stripUnit
  rw [h1, zeroDots_word u none h]
  apply replaceAll_not_infix
  rintro ⟨a, b, e⟩
  have : '-' ∈ u := by rw [← e]; simp
  exact absurd (h _ this) (by decide)

/-- a name: a letter, then word characters, without an underscore before a digit -/
def IsName (u : List Char) : Prop := (∃ c t, u = c :: t ∧ c.isAlpha = true) ∧ (∀ c ∈ u, isWord c = true) ∧ ¬ HasCode u

/-- the unit does not look like the exponent of the number before it -/
def NotExponent (n : Numeral) (u : List Char) : Prop :=
  ∀ e s ds t, n.exp = some (e, s, ds) → u = e :: t → ∃ y v, t = y :: v ∧ y.isDigit = false

theorem unit_occurs_once (n : Numeral) (h : n.WF) (u : List Char) (hu : IsName u) (hx : NotExponent n u) (a b : List Char)
    (e : n.text = a ++ b) (hb : b ≠ []) : ¬ u <+: b ++ (u ++ []) := by
  obtain ⟨⟨c, t, hc, hal⟩, hwd, -⟩ := hu
  rintro ⟨r, hr⟩
  cases b with
  | nil => exact hb rfl
  | cons x b =>
    rw [hc] at hr
    simp only [List.cons_append, List.cons.injEq] at hr
    obtain ⟨rfl, hr⟩ := hr
    have hnd : c.isDigit = false := by
      cases hd : c.isDigit with
      | false => rfl
      | true =>
        simp only [Char.isAlpha, Char.isUpper, Char.isLower, Char.isDigit, Bool.or_eq_true, Bool.and_eq_true, decide_eq_true_eq] at hal hd
        have h9 : c.val ≤ 57 := hd.2
        rcases hal with ⟨h1, -⟩ | ⟨h1, -⟩
        · have h1 : (65 : UInt32) ≤ c.val := h1
          exact absurd (UInt32.le_trans h1 h9) (by decide)
        · have h1 : (97 : UInt32) ≤ c.val := h1
          exact absurd (UInt32.le_trans h1 h9) (by decide)
    have hdig : ∀ l : List Char, (∀ c ∈ l, c.isDigit = true) → c ∉ l := fun l hl hm => by simp [hl c hm] at hnd
    -- the part of the text before the exponent has no letter
    have hpart : ∀ f : List Char, f = (if n.neg then ['-'] else []) ++ n.int ++ (match n.frac with | some f => '.' :: f | none => []) → c ∉ f := by
      rintro f rfl
      simp only [List.mem_append, not_or]
      refine ⟨⟨?_, hdig _ h.2.1⟩, ?_⟩
      · cases n.neg
        · simp
        · simp only [if_true, List.mem_singleton]; rintro rfl; exact absurd hal (by decide)
      · cases hf : n.frac with
        | none => simp
        | some f =>
          simp only [List.mem_cons, not_or]
          refine ⟨?_, hdig f (h.2.2.1 f hf).2⟩
          rintro rfl; exact absurd hal (by decide)
    have hp := hpart _ rfl
    generalize hF : (if n.neg then ['-'] else []) ++ n.int ++ (match n.frac with | some f => '.' :: f | none => []) = F at hp
    have htext : n.text = F ++ (match n.exp with | some (e, s, ds) => e :: ((if s then ['-'] else []) ++ ds) | none => []) := by
      rw [← hF]; rfl
    cases hexp : n.exp with
    | none =>
      rw [hexp] at htext
      simp only [List.append_nil] at htext
      rw [htext] at e
      exact hp (by rw [e]; simp)
    | some y =>
      obtain ⟨ex, s, ds⟩ := y
      rw [hexp] at htext
      simp only at htext
      obtain ⟨-, hne, hds⟩ := h.2.2.2 ex s ds hexp
      rw [htext] at e
      -- locate c
      have key : ∀ a F : List Char, c ∉ F → F ++ ex :: ((if s then ['-'] else []) ++ ds) = a ++ c :: b →
          ex = c ∧ b = (if s then ['-'] else []) ++ ds := by
        intro a
        induction a with
        | nil =>
          intro F hF' e'
          cases F with
          | nil => simp only [List.nil_append, List.cons.injEq] at e'; exact ⟨e'.1, e'.2.symm⟩
          | cons z F =>
            simp only [List.nil_append, List.cons_append, List.cons.injEq] at e'
            rw [e'.1] at hF'; simp at hF'
        | cons z a ih =>
          intro F hF' e'
          cases F with
          | nil =>
            simp only [List.nil_append, List.cons_append, List.cons.injEq] at e'
            have hmem : c ∈ (if s then ['-'] else []) ++ ds := by rw [e'.2]; simp
            rcases List.mem_append.mp hmem with hm | hm
            · cases s with
              | false => simp at hm
              | true =>
                simp only [if_true, List.mem_singleton] at hm
                rw [hm] at hal; exact absurd hal (by decide)
            · exact absurd hm (hdig ds hds)
          | cons y F =>
            simp only [List.cons_append, List.cons.injEq] at e'
            exact ih F (fun hm => hF' (by simp [hm])) e'.2
      obtain ⟨rfl, rfl⟩ := key a F hp e
      obtain ⟨y, v, rfl, hy⟩ := hx ex s ds t hexp hc
      have hyw := hwd y (by rw [hc]; simp)
      cases s with
      | true =>
        simp only [if_true, List.cons_append, List.nil_append, List.cons.injEq] at hr
        rw [hr.1] at hyw
        exact absurd hyw (by decide)
      | false =>
        cases ds with
        | nil => exact hne rfl
        | cons d ds =>
          simp only [Bool.false_eq_true, if_false, List.cons_append, List.nil_append, List.cons.injEq] at hr
          have := hds d (by simp)
          rw [← hr.1, hy] at this
          cases this

/-- the identifier for a number and a unit: the code of the number, an underscore, the canonical name -/
theorem mangle_unit (n : Numeral) (h : n.WF) (term a u name : List Char)
    (hs : squeeze term = a ++ u) (hterm : Separated a n.text) (hmm : ¬ ['-', '-'] <:+: squeeze term)
    (hu : IsName u) (hx : NotExponent n u) (hname : IsName name) : mangle term (some (u, name)) = n.code ++ '_' :: name := by
  have e1 := stripTerm_eq term a u n.text hs hmm hterm hu.2.2
  obtain ⟨cu, tu, hcu, -⟩ := hu.1
  have e2 := replaceAll_once u ('_' :: name) n.text [] (by rw [hcu]; simp) (unit_occurs_once n h u hu hx)
    (by intro hi; have := List.infix_nil.mp hi; rw [hcu] at this; cases this)
  simp only [List.append_nil] at e2
  simp only [mangle, e1, stripUnit_word u hu.2.1, e2]
  rw [underscore_text n h]
  congr 1
  show (_ :: underscore name) = _
  congr 1
  unfold underscore
  conv => rhs; rw [← List.map_id name]
  apply List.map_congr_left
  intro c hc
  obtain ⟨h1, h2, -⟩ := word_noMinus (hname.2.1 c hc)
  simp [h1, h2]

/-- C16, a scaling factor with a unit: decoding gives the number and the canonical name of the unit, separated by a space.
Missing: as above; and the unit must not be the bare letter of the exponent. -/
theorem C16_roundtrip_unit_partial (n : Numeral) (h : n.WF) (term a u name pre post : List Char)
    (hs : squeeze term = a ++ u) (hterm : Separated a n.text) (hmm : ¬ ['-', '-'] <:+: squeeze term)
    (hu : IsName u) (hx : NotExponent n u) (hname : IsName name)
    (hpre : ¬ HasCode pre) (hw : WordStarts pre) (hpost : ¬ HasCode post) (he : WordEnds post) :
    unmangle (pre ++ mangle term (some (u, name)) ++ post) = some (pre ++ n.text ++ [' '] ++ name ++ post) := by
  obtain ⟨c, t, hc, hal⟩ := hname.1
  have hcw : isWord c = true := hname.2.1 c (by rw [hc]; simp)
  have hnd : c.isDigit = false := by
    cases hd : c.isDigit with
    | false => rfl
    | true =>
      simp only [Char.isAlpha, Char.isUpper, Char.isLower, Char.isDigit, Bool.or_eq_true, Bool.and_eq_true, decide_eq_true_eq] at hal hd
      have h9 : c.val ≤ 57 := hd.2
      rcases hal with ⟨h1, -⟩ | ⟨h1, -⟩
      · have h1 : (65 : UInt32) ≤ c.val := h1
        exact absurd (UInt32.le_trans h1 h9) (by decide)
      · have h1 : (97 : UInt32) ≤ c.val := h1
        exact absurd (UInt32.le_trans h1 h9) (by decide)
  have e := mangle_unit n h term a u name hs hterm hmm hu hx hname
  have hsp : matchSpace ('_' :: name ++ post) = (true, name ++ post) := by
    rw [hc]
    simp [matchSpace, hal]
  have hnc : ¬ HasCode (name ++ post) := by
    intro hC
    rcases hasCode_append hC with hC | hC | ⟨a', d, b', -, e2, e3⟩
    · exact hname.2.2 hC
    · exact hpost hC
    · have := he d b' e2
      simp [isWord, Char.isAlphanum, e3] at this
  have := unmangle_code n h pre ('_' :: name ++ post) hpre hw
    (by intro c cs e; simp only [List.cons_append, List.cons.injEq] at e; rw [← e.1]; decide)
    (by intro c' cs e; rw [hc] at e; simp only [List.cons_append, List.cons.injEq, true_and] at e; rw [← e.1]; exact hnd)
    (by rintro c' cs e (rfl | rfl) <;> simp at e)
    (by rw [hsp]; exact hnc)
  rw [hsp] at this
  rw [e]
  simpa using this

/-- C16, two numbers written differently (signs, digits, exponents) get different identifiers -/
theorem C16_distinct_partial (n n' : Numeral) (h : n.WF) (h' : n'.WF) (term term' : List Char)
    (ht : Separated (squeeze term) n.text) (hmm : ¬ ['-', '-'] <:+: squeeze term)
    (ht' : Separated (squeeze term') n'.text) (hmm' : ¬ ['-', '-'] <:+: squeeze term')
    (e : mangle term none = mangle term' none) : n.text = n'.text := by
  have h0 : ¬ HasCode ([] : List Char) := noCode_of_count rfl
  have hw : WordStarts [] := fun c cs e => by simp at e
  have he : WordEnds [] := fun c cs e => by simp at e
  have r := C16_roundtrip_partial n h term [] [] ht hmm h0 hw h0 he
  have r' := C16_roundtrip_partial n' h' term' [] [] ht' hmm' h0 hw h0 he
  rw [e, r'] at r
  simpa using r.symm

theorem separated_self {t : List Char} (h : '_' ∉ t) : Separated t t := by
  refine ⟨?_, ?_⟩
  · rw [List.filter_eq_self]
    intro c hc
    simp only [Bool.not_eq_true', beq_eq_false_iff_ne]
    rintro rfl
    exact h hc
  · intro a b e
    exact absurd (by rw [e]; simp) h

/-- -2.5e-3 -/
def exNum : Numeral := ⟨true, ['2'], some ['5'], some ('e', true, ['3'])⟩

theorem exNum_wf : exNum.WF := by
  refine ⟨by decide, by decide, ?_, ?_⟩
  · intro f hf
    simp only [exNum, Option.some.injEq] at hf
    subst hf
    decide
  · intro e s ds hf
    simp only [exNum, Option.some.injEq, Prod.mk.injEq] at hf
    obtain ⟨rfl, rfl, rfl⟩ := hf
    decide

theorem noCode_word {s : List Char} (h : '_' ∉ s) : ¬ HasCode s := noCode_of_count (List.count_eq_zero.mpr h)

/-- the hypotheses are met: `m / - 2.5e-3 mL * s` -/
example : unmangle (['m', ' ', '/', ' '] ++
      mangle ['-', ' ', '2', '.', '5', 'e', '-', '3', ' ', 'm', 'L'] (some (['m', 'L'], ['m', 'i', 'l', 'l', 'i', 'l', 'i', 't', 'e', 'r'])) ++
      [' ', '*', ' ', 's']) =
    some (['m', ' ', '/', ' '] ++ ['-', '2', '.', '5', 'e', '-', '3'] ++ [' '] ++ ['m', 'i', 'l', 'l', 'i', 'l', 'i', 't', 'e', 'r'] ++
      [' ', '*', ' ', 's']) := by
  refine C16_roundtrip_unit_partial exNum exNum_wf _ ['-', '2', '.', '5', 'e', '-', '3'] _ _ _ _ (by decide)
    (separated_self (by decide)) ?_ ⟨⟨'m', ['L'], rfl, by decide⟩, by decide, noCode_word (by decide)⟩ ?_
    ⟨⟨'m', _, rfl, by decide⟩, by decide, noCode_word (by decide)⟩ (noCode_word (by decide)) ?_ (noCode_word (by decide)) ?_
  · have : squeeze ['-', ' ', '2', '.', '5', 'e', '-', '3', ' ', 'm', 'L'] = ['-', '2', '.', '5', 'e', '-', '3', 'm', 'L'] := by decide
    rw [this]
    rintro ⟨a, b, e⟩
    have e2 := congrArg (fun l => l.count '-') e
    rcases a with _ | ⟨x, _ | ⟨y, a⟩⟩
    · simp at e
    · simp at e
    · simp only [List.cons_append, List.cons.injEq] at e
      obtain ⟨rfl, rfl, -⟩ := e
      simp only [List.count_append, List.count_cons] at e2
      simp at e2
      omega
  · intro e s ds t h1 h2
    simp only [exNum, Option.some.injEq, Prod.mk.injEq] at h1
    obtain ⟨rfl, -, -⟩ := h1
    simp at h2
  · intro c cs e
    have := congrArg List.getLast? e
    simp at this
    rw [← this]; decide
  · intro c cs e
    simp only [List.cons.injEq] at e
    rw [← e.1]; decide

/-- digit separators are allowed: `1_000` is written for 1000 -/
example : mangle ['1', '_', '0', '0', '0'] none = ['_', '1', '0', '0', '0'] := by decide +kernel

/-- C16 fails in general (1): `.5` and `-5` get the same identifier; both decode to `-5` -/
theorem C16_leading_dot_counterexample :
    mangle ['.', '5'] none = mangle ['-', '5'] none ∧ unmangle (mangle ['.', '5'] none) = some ['-', '5'] := by
  decide +kernel

/-- C16 fails in general (2): with two factors, one the beginning of the other's identifier, every occurrence is replaced:
`m / 2 / 2.5` becomes `m / _2 / _2_5` and decodes to `m / 2 / 2_5`, and `2_5` is read as 25 -/
theorem C16_two_factors_counterexample :
    unmangle (['m', ' ', '/', ' '] ++ mangle ['2'] none ++ [' ', '/', ' '] ++ mangle ['2', '.', '5'] none) =
      some ['m', ' ', '/', ' ', '2', ' ', '/', ' ', '2', '_', '5'] := by
  decide +kernel

/-- C16 fails in general (3): the sign of a second factor is lost: `m / 2 mL / -2 mL` -/
theorem C16_sign_counterexample :
    unmangle (['m', ' ', '/', ' '] ++ mangle ['2', 'g'] (some (['g'], ['g', 'r', 'a', 'm'])) ++ [' ', '/', ' '] ++
        mangle ['-', '2', 'g'] (some (['g'], ['g', 'r', 'a', 'm']))) =
      some ['m', ' ', '/', ' ', '2', ' ', 'g', 'r', 'a', 'm', ' ', '/', ' ', '2', ' ', 'g', 'r', 'a', 'm'] := by
  decide +kernel

/-- C16 fails in general (4): the unit `e` is also found in the exponent -/
theorem C16_exponent_counterexample :
    unmangle (mangle ['2', 'e', '5', 'e'] (some (['e'], ['e', 'l', 'e', 'm']))) =
      some ['2', ' ', 'e', 'l', 'e', 'm', '5', '_', 'e', 'l', 'e', 'm'] := by
  decide +kernel

/-- C16 fails in general (5): a number ending with a dot leaves underscores behind -/
theorem C16_trailing_dot_counterexample :
    unmangle (mangle ['2', '.', 'g'] (some (['g'], ['g', 'r', 'a', 'm']))) = some ['2', '_', '_', 'g', 'r', 'a', 'm'] := by
  decide +kernel

end Verif.Mangle
