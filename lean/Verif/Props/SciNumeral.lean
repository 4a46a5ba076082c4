import Verif.Props.SciScan
/-!
# Numbers under `_scientific_notation_preprocessor`
-/

set_option linter.unusedSimpArgs false
set_option linter.unusedVariables false

namespace Verif.SciNotation
open Verif.Py Verif.Regex

/-- a number as written: digits, fraction, sign and digits of the exponent -/
structure Numeral where
  int : List Char
  frac : Option (List Char)
  exp : Option (List Char × List Char)
  deriving DecidableEq

def Numeral.fracText (n : Numeral) : List Char := match n.frac with
  | none => []
  | some f => '.' :: f

def Numeral.expText (n : Numeral) : List Char := match n.exp with
  | none => []
  | some (sg, ds) => 'e' :: (sg ++ ds)

/-- without the exponent -/
def Numeral.mant (n : Numeral) : List Char := n.int ++ n.fracText

def Numeral.text (n : Numeral) : List Char := n.mant ++ n.expText

/-- `12`, `12.`, `1.2` or `.2`, maybe with an exponent -/
def Numeral.wf (n : Numeral) : Bool :=
  n.int.all Char.isDigit && (match n.frac with
    | none => n.int != []
    | some f => f.all Char.isDigit && (n.int != [] || f != [])) &&
  match n.exp with
  | none => true
  | some (sg, ds) => (sg == [] || sg == ['+'] || sg == ['-']) && ds.all Char.isDigit && ds != []

/-- the number `10` -/
def Numeral.ten : Numeral := ⟨['1', '0'], none, none⟩

theorem not_digit {x : Char} (h : isWord x = false) : x.isDigit = false := by
  cases hd : x.isDigit with
  | false => rfl
  | true => rw [digit_word hd] at h; cases h

theorem digits_word {t : List Char} (h : t.all Char.isDigit = true) : t.all isWord = true := by
  rw [List.all_eq_true] at h ⊢
  intro x hx
  exact digit_word (h x hx)

/-- no match begins here, so it does not matter what comes before -/
theorem scan_before {u : List Char} (b b' : Bool) (hu : ∀ x xs, u = x :: xs → x.isDigit = false ∧ x ≠ '.') : scan b u = scan b' u := by
  cases u with
  | nil => rfl
  | cons x xs =>
    obtain ⟨h1, h2⟩ := hu x xs rfl
    rw [scan_other h1 h2, scan_other h1 h2]

theorem times0_none {x : Char} {xs : List Char} (h1 : isSpace x = false) (h2 : x ≠ '*') : times0 (x :: xs) = none := by
  unfold times0
  rw [List.dropWhile_cons, if_neg (by simp [h1])]
  split
  · rename_i e; cases e; exact absurd rfl h2
  · rfl

theorem afterTen0_none {x : Char} {xs : List Char} (h1 : isSpace x = false) (h2 : x ≠ '*') (h3 : x ≠ '^') : afterTen0 (x :: xs) = none := by
  unfold afterTen0
  rw [List.dropWhile_cons, if_neg (by simp [h1])]
  split
  · rename_i e; cases e; exact absurd rfl h2
  · rename_i e; cases e; exact absurd rfl h3
  · rfl

theorem digit_other {x : Char} (h : x.isDigit = true) : isSpace x = false ∧ x ≠ '*' ∧ x ≠ '^' ∧ x ≠ '.' ∧ x ≠ '+' ∧ x ≠ '-' := by
  refine ⟨?_, ?_, ?_, ?_, ?_, ?_⟩
  · cases hs : isSpace x with
    | false => rfl
    | true => rw [(isDigit_not_space hs).1] at h; cases h
  all_goals
    rintro rfl
    revert h
    decide

/-- where `10` begins a match -/
theorem ten0_digits {ds z : List Char} (hd : ds.all Char.isDigit = true) (hz : ∀ x xs, z = x :: xs → x.isDigit = false) :
    ten0 (ds ++ z) = if ds = ['1', '0'] then afterTen0 z else none := by
  match ds, hd with
  | [], _ =>
    simp only [List.nil_append]
    rw [if_neg (by simp)]
    unfold ten0
    split
    · exact absurd (hz _ _ rfl) (by decide)
    · rfl
  | [x], _ =>
    rw [if_neg (by simp)]
    simp only [List.cons_append, List.nil_append]
    unfold ten0
    split
    · rename_i e; cases e; exact absurd (hz _ _ rfl) (by decide)
    · rfl
  | x :: y :: [], _ =>
    simp only [List.cons_append, List.nil_append]
    split
    · rename_i e; cases e; rfl
    · rename_i e
      unfold ten0
      split
      · rename_i e'; cases e'; exact absurd rfl e
      · rfl
  | x :: y :: q :: qs, hd =>
    rw [if_neg (by simp)]
    simp only [List.cons_append]
    simp only [List.all_cons, Bool.and_eq_true] at hd
    obtain ⟨h1, h2, h3, _⟩ := digit_other hd.2.2.1
    unfold ten0
    split
    · rename_i e; cases e; exact afterTen0_none h1 h2 h3
    · rfl

theorem hit_number {t v : List Char} (ht : IsNumber t) (hv : ∀ x xs, v = x :: xs → x.isDigit = false ∧ x ≠ '.') :
    hit (t ++ v) = match times0 v with
      | some (k, r) => some (t, k, r)
      | none => (ten0 (t ++ v)).map fun p => (['1'], p.1, p.2) := by
  unfold hit scaled0
  rw [number_append ht hv]
  simp only
  cases times0 v with
  | none => rfl
  | some p => rfl

theorem hit_digits {ds v : List Char} (hd : ds.all Char.isDigit = true) (hne : ds ≠ []) (hv : ∀ x xs, v = x :: xs → x.isDigit = false ∧ x ≠ '.') :
    hit (ds ++ v) = match times0 v with
      | some (k, r) => some (ds, k, r)
      | none => if ds = ['1', '0'] then (afterTen0 v).map fun p => (['1'], p.1, p.2) else none := by
  rw [hit_number (.int ds hne hd) hv, ten0_digits hd (fun x xs h => (hv x xs h).1)]
  split
  · rfl
  · split <;> rfl

theorem hit_frac {ds fs v : List Char} (hd : ds.all Char.isDigit = true) (hne : ds ≠ []) (hf : fs.all Char.isDigit = true)
    (hv : ∀ x xs, v = x :: xs → x.isDigit = false ∧ x ≠ '.') : hit (ds ++ '.' :: (fs ++ v)) = (times0 v).map fun p => (ds ++ '.' :: fs, p.1, p.2) := by
  have := hit_number (.frac ds fs hne hd hf) hv
  rw [List.append_assoc, List.cons_append, ten0_digits hd (by intro x xs h; cases h; decide)] at this
  rw [this]
  cases times0 v with
  | some p => rfl
  | none =>
    simp only [Option.map_none]
    split
    · rw [afterTen0_none (by decide) (by decide) (by decide)]; rfl
    · rfl

theorem hit_dot {fs v : List Char} (hf : fs.all Char.isDigit = true) (hv : ∀ x xs, v = x :: xs → x.isDigit = false ∧ x ≠ '.') (h : times0 v = none) :
    hit ('.' :: (fs ++ v)) = none := by
  by_cases hne : fs = []
  · subst hne
    simp only [List.nil_append]
    have hn : number ('.' :: v) = none := by
      unfold number
      rw [if_pos (by simp [List.takeWhile_cons])]
      simp only
      rw [if_pos]
      cases v with
      | nil => rfl
      | cons x xs => simp [List.takeWhile_cons, (hv x xs rfl).1]
    simp [hit, scaled0, hn, ten0]
  · have := hit_number (.dot fs hne hf) hv
    rw [h] at this
    simp only [List.cons_append] at this
    rw [this]
    rfl

/-- digits that begin no match are copied -/
theorem scan_digits {b : Bool} {ds v : List Char} (hd : ds.all Char.isDigit = true) (hne : ds ≠ []) (h : hit (ds ++ v) = none) :
    scan b (ds ++ v) = ds ++ scan true v := by
  cases ds with
  | nil => exact absurd rfl hne
  | cons x xs =>
    simp only [List.all_cons, Bool.and_eq_true] at hd
    rw [List.cons_append] at h ⊢
    rw [scan_none h, digit_word hd.1, scan_word (digits_word hd.2), List.cons_append]

/-- the exponent of a number is copied -/
theorem scan_exp {b : Bool} {n : Numeral} {u : List Char} (hn : n.wf = true) (hu : ∀ x xs, u = x :: xs → isWord x = false ∧ x ≠ '.')
    (hexp : ∀ sg ds, n.exp = some (sg, ds) → sg ≠ [] → times0 u = none ∧ (ds = ['1', '0'] → afterTen0 u = none)) :
    scan b (n.expText ++ u) = n.expText ++ scan true u := by
  have hu' : ∀ x xs, u = x :: xs → x.isDigit = false ∧ x ≠ '.' := fun x xs h => ⟨not_digit (hu x xs h).1, (hu x xs h).2⟩
  unfold Numeral.expText
  simp only [Numeral.wf, Bool.and_eq_true] at hn
  obtain ⟨_, h2⟩ := hn
  split
  · exact scan_before _ _ hu'
  · rename_i sg ds he
    rw [he] at h2
    simp only [Bool.and_eq_true, Bool.or_eq_true, beq_iff_eq, bne_iff_ne, ne_eq] at h2
    obtain ⟨⟨hs, hd⟩, hne⟩ := h2
    rw [List.cons_append, scan_other (by decide) (by decide)]
    have he' : isWord 'e' = true := by decide
    rw [he', List.append_assoc]
    by_cases hsg : sg = []
    · subst hsg
      simp only [List.nil_append]
      rw [scan_word (digits_word hd), List.cons_append]
    · obtain ⟨h3, h4⟩ := hexp sg ds he hsg
      have hh : hit (ds ++ u) = none := by
        rw [hit_digits hd hne hu', h3]
        simp only
        split
        · rename_i e; rw [h4 e]; rfl
        · rfl
      have : ∃ c, sg = [c] ∧ c.isDigit = false ∧ c ≠ '.' := by
        rcases hs with (rfl | rfl) | rfl
        · exact absurd rfl hsg
        · exact ⟨_, rfl, by decide, by decide⟩
        · exact ⟨_, rfl, by decide, by decide⟩
      obtain ⟨c, rfl, hc1, hc2⟩ := this
      simp only [List.cons_append, List.nil_append]
      rw [scan_other hc1 hc2, scan_digits hd hne hh]

/-- a number and what follows -/
theorem scan_numeral {n : Numeral} {u : List Char} (hn : n.wf = true) (hu : ∀ x xs, u = x :: xs → isWord x = false ∧ x ≠ '.')
    (hexp : ∀ sg ds, n.exp = some (sg, ds) → sg ≠ [] → times0 u = none ∧ (ds = ['1', '0'] → afterTen0 u = none))
    (hfrac : n.frac = some ['1', '0'] → afterTen0 u = none) :
    scan false (n.text ++ u) = match (if n.exp = none then times0 u else none) with
      | some (k, r) => n.mant ++ 'e' :: (k ++ scan true r)
      | none => match (if n = .ten then afterTen0 u else none) with
        | some (k, r) => '1' :: 'e' :: (k ++ scan true r)
        | none => n.text ++ scan true u := by
  have hw := hn
  simp only [Numeral.wf, Bool.and_eq_true] at hn
  obtain ⟨⟨hi, hf⟩, he⟩ := hn
  have hv : ∀ x xs, n.expText ++ u = x :: xs → x.isDigit = false ∧ x ≠ '.' := by
    intro x xs h
    unfold Numeral.expText at h
    split at h
    · exact ⟨not_digit (hu x xs h).1, (hu x xs h).2⟩
    · cases h; decide
  have tv : times0 (n.expText ++ u) = if n.exp = none then times0 u else none := by
    unfold Numeral.expText
    split
    · rename_i e; rw [e]; rfl
    · rename_i e; rw [e]; exact times0_none (by decide) (by decide)
  have av : afterTen0 (n.expText ++ u) = if n.exp = none then afterTen0 u else none := by
    unfold Numeral.expText
    split
    · rename_i e; rw [e]; rfl
    · rename_i e; rw [e]; exact afterTen0_none (by decide) (by decide) (by decide)
  have ee : ∀ b, scan b (n.expText ++ u) = n.expText ++ scan true u := fun b => scan_exp hw hu hexp
  have te : ∀ p, (if n.exp = none then times0 u else none) = some p → n.expText = [] := by
    intro p h
    split at h
    · rename_i e; unfold Numeral.expText; rw [e]
    · cases h
  -- the digits after the dot
  have dots : ∀ b fs, n.frac = some fs → fs.all Char.isDigit = true → (if n.exp = none then times0 u else none) = none →
      scan b ('.' :: (fs ++ (n.expText ++ u))) = '.' :: (fs ++ (n.expText ++ scan true u)) := by
    intro b fs hfs hd ht
    rw [scan_none (hit_dot hd hv (by rw [tv, ht]))]
    by_cases hne : fs = []
    · subst hne
      simp only [List.nil_append, ee]
    · rw [scan_digits hd hne, ee]
      rw [hit_digits hd hne hv, tv, ht]
      simp only
      split
      · rename_i e
        subst e
        rw [av, hfrac hfs]
        simp
      · rfl
  unfold Numeral.text Numeral.mant Numeral.fracText
  cases hfr : n.frac with
  | none =>
    rw [hfr] at hf
    simp only [bne_iff_ne, ne_eq] at hf
    simp only [List.append_nil, List.append_assoc]
    have hh := hit_digits hi hf hv
    rw [tv, av] at hh
    cases ht : (if n.exp = none then times0 u else none) with
    | some p =>
      obtain ⟨k, r⟩ := p
      rw [ht] at hh
      simp only at hh ⊢
      cases hint : n.int with
      | nil => exact absurd hint hf
      | cons x xs =>
        rw [hint] at hh hi
        simp only [List.all_cons, Bool.and_eq_true] at hi
        rw [List.cons_append] at hh ⊢
        exact scan_hit (by rw [digit_word hi.1]; simp) hh
    | none =>
      rw [ht] at hh
      simp only at hh ⊢
      cases h10 : (if n = .ten then afterTen0 u else none) with
      | some p =>
        obtain ⟨k, r⟩ := p
        simp only
        split at h10
        · rename_i e
          rw [e] at hh ⊢
          rw [if_pos (by rfl), if_pos (by rfl), h10] at hh
          simp only [Option.map_some] at hh
          show scan false ('1' :: '0' :: _) = _
          exact scan_hit (by decide) hh
        · cases h10
      | none =>
        simp only
        rw [scan_digits hi hf, ee]
        rw [hh]
        split
        · rename_i e
          split
          · rename_i e'
            have : n = .ten := by cases n; simp only at e hfr e'; subst e; subst hfr; subst e'; rfl
            rw [if_pos this] at h10
            rw [h10]; rfl
          · rfl
        · rfl
  | some fs =>
    rw [hfr] at hf
    simp only [Bool.and_eq_true, Bool.or_eq_true, bne_iff_ne, ne_eq] at hf
    have hnt : n ≠ .ten := by rintro rfl; cases hfr
    simp only [List.append_assoc, List.cons_append, if_neg hnt]
    by_cases hne : n.int = []
    · have hfn : fs ≠ [] := by rcases hf.2 with h | h; exact absurd hne h; exact h
      rw [hne]
      simp only [List.nil_append]
      cases ht : (if n.exp = none then times0 u else none) with
      | some p =>
        obtain ⟨k, r⟩ := p
        simp only
        have hh := hit_digits hf.1 hfn hv
        rw [tv, ht] at hh
        simp only at hh
        rw [scan_inside (by decide)]
        cases fs with
        | nil => exact absurd rfl hfn
        | cons x xs =>
          simp only [List.all_cons, Bool.and_eq_true] at hf
          rw [List.cons_append] at hh ⊢
          have h0 : isWord '.' = false := by decide
          rw [h0, scan_hit (by rw [digit_word hf.1.1]; simp) hh]
      | none => simp only; exact dots _ fs hfr hf.1 ht
    · have hh := hit_frac (v := n.expText ++ u) hi hne hf.1 hv
      rw [tv] at hh
      cases ht : (if n.exp = none then times0 u else none) with
      | some p =>
        obtain ⟨k, r⟩ := p
        rw [ht] at hh
        simp only [Option.map_some] at hh ⊢
        cases hint : n.int with
        | nil => exact absurd hint hne
        | cons x xs =>
          rw [hint] at hh hi
          simp only [List.all_cons, Bool.and_eq_true] at hi
          rw [List.cons_append] at hh ⊢
          rw [scan_hit (by rw [digit_word hi.1]; simp) hh]
          simp
      | none =>
        rw [ht] at hh
        simp only
        rw [scan_digits hi hne hh, dots _ fs hfr hf.1 ht]

end Verif.SciNotation
