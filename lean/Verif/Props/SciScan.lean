import Verif.Props.SciRegex
/-!
# `_scientific_notation_preprocessor` as a walk over the text
-/

set_option linter.unusedSimpArgs false
set_option linter.unusedVariables false

namespace Verif.SciNotation
open Verif.Py Verif.Regex

/-- `-?\d+\b`: its text and what follows -/
def expo (s : List Char) : Option (List Char × List Char) :=
  if (sign s).2.takeWhile Char.isDigit = [] ∨ wordy ((sign s).2.dropWhile Char.isDigit).head? = true then none
  else some ((sign s).1 ++ (sign s).2.takeWhile Char.isDigit, (sign s).2.dropWhile Char.isDigit)

def power0 (s : List Char) : Option (List Char × List Char) := expo (plus (s.dropWhile isSpace))

def afterTen0 (s : List Char) : Option (List Char × List Char) := match s.dropWhile isSpace with
  | '*' :: '*' :: s => power0 s
  | '^' :: s => power0 s
  | _ => none

def ten0 : List Char → Option (List Char × List Char)
  | '1' :: '0' :: s => afterTen0 s
  | _ => none

def times0 (s : List Char) : Option (List Char × List Char) := match s.dropWhile isSpace with
  | '*' :: r => ten0 (r.dropWhile isSpace)
  | _ => none

def scaled0 (s : List Char) : Option (List Char × List Char × List Char) := match number s with
  | some (t, r) => (times0 r).map fun p => (t, p.1, p.2)
  | none => none

/-- a match: the number, the exponent, what follows -/
def hit (s : List Char) : Option (List Char × List Char × List Char) := match scaled0 s with
  | some d => some d
  | none => (ten0 s).map fun p => (['1'], p.1, p.2)

/-- the two forms find the same -/
def Agree (g : List (Nat × List Char)) (o : Option At) (p : Option (List Char × List Char)) : Prop :=
  (o = none ∧ p = none) ∨ ∃ pv k r, o = some ⟨pv, r, (2, k) :: g⟩ ∧ wordy pv = true ∧ p = some (k, r)

theorem agree_exponent (g : List (Nat × List Char)) (s : List Char) : Agree g (exponent g s) (expo s) := by
  unfold exponent expo
  split
  · exact .inl ⟨rfl, rfl⟩
  · rename_i h
    simp only [not_or] at h
    exact .inr ⟨_, _, _, rfl, (last_digit (all_takeWhile _ _) h.1 none).1, rfl⟩

theorem agree_power (g : List (Nat × List Char)) (s : List Char) : Agree g (power g s) (power0 s) := agree_exponent _ _

theorem agree_afterTen (g : List (Nat × List Char)) (s : List Char) : Agree g (afterTen g s) (afterTen0 s) := by
  unfold afterTen afterTen0
  generalize s.dropWhile isSpace = z
  split
  · exact agree_power _ _
  · exact agree_power _ _
  · rename_i h1 h2
    refine .inl ⟨rfl, ?_⟩
    split
    · exact absurd rfl (h1 _)
    · exact absurd rfl (h2 _)
    · rfl

theorem agree_ten (g : List (Nat × List Char)) (s : List Char) : Agree g (ten g s) (ten0 s) := by
  unfold ten ten0
  split
  · exact agree_afterTen _ _
  · rename_i h1
    refine .inl ⟨rfl, ?_⟩
    split
    · exact absurd rfl (h1 _)
    · rfl

theorem agree_times (g : List (Nat × List Char)) (s : List Char) : Agree g (times g s) (times0 s) := by
  unfold times times0
  generalize s.dropWhile isSpace = z
  split
  · exact agree_ten _ _
  · rename_i h1
    refine .inl ⟨rfl, ?_⟩
    split
    · exact absurd rfl (h1 _)
    · rfl

theorem isNumber_ne {t : List Char} (h : IsNumber t) : t ≠ [] := by
  cases h with
  | int _ h _ => exact h
  | frac ds fs h _ _ => simp
  | dot fs _ _ => simp

/-- a match is replaced by `hit` -/
theorem here_hit (pv : Option Char) (s : List Char) :
    (sciRe.here pv s = none ∧ (boundary pv s.head? = false ∨ hit s = none)) ∨
      (boundary pv s.head? = true ∧ ∃ d m k r, sciRe.here pv s = some d ∧ d.rest = r ∧ wordy d.prev = true ∧ asScientific d = m ++ 'e' :: k ∧ hit s = some (m, k, r)) := by
  rw [here_sci]
  unfold sciHere
  cases hb : boundary pv s.head? with
  | false => exact .inl ⟨by simp, .inl rfl⟩
  | true =>
    simp only [if_true]
    unfold hit scaled scaled0
    cases hn : number s with
    | none =>
      simp only
      rcases agree_ten [] s with ⟨h1, h2⟩ | ⟨q, k, r, h1, h2, h3⟩
      · exact .inl ⟨h1, .inr (by rw [h2]; rfl)⟩
      · exact .inr ⟨by first | rfl | trivial, _, ['1'], k, r, h1, rfl, h2, by simp [asScientific, At.get], by rw [h3]; rfl⟩
    | some p =>
      obtain ⟨t, u⟩ := p
      simp only
      rcases agree_times [(1, t)] u with ⟨h1, h2⟩ | ⟨q, k, r, h1, h2, h3⟩
      · rw [h1, h2]
        simp only [Option.map_none]
        rcases agree_ten [] s with ⟨h1, h2⟩ | ⟨q, k, r, h1, h2, h3⟩
        · exact .inl ⟨h1, .inr (by rw [h2]; rfl)⟩
        · exact .inr ⟨by first | rfl | trivial, _, ['1'], k, r, h1, rfl, h2, by simp [asScientific, At.get], by rw [h3]; rfl⟩
      · rw [h1, h3]
        refine .inr ⟨by first | rfl | trivial, _, t, k, r, rfl, rfl, h2, ?_, rfl⟩
        have ht := isNumber_ne (number_split hn).2
        cases t with
        | nil => exact absurd rfl ht
        | cons x xs => simp [asScientific, At.get]

theorem length_expo {s k r : List Char} (h : expo s = some (k, r)) : r.length ≤ s.length := by
  unfold expo at h
  split at h
  · cases h
  · cases h
    have h1 := List.dropWhile_sublist Char.isDigit (l := (sign s).2) |>.length_le
    have h2 : (sign s).2.length ≤ s.length := by unfold sign; split <;> simp
    omega

theorem length_plus (s : List Char) : (plus s).length ≤ s.length := by unfold plus; split <;> simp

theorem length_power0 {s k r : List Char} (h : power0 s = some (k, r)) : r.length ≤ s.length := by
  have h1 := length_expo h
  have h2 := length_plus (s.dropWhile isSpace)
  have h3 := List.dropWhile_sublist isSpace (l := s) |>.length_le
  omega

theorem length_afterTen0 {s k r : List Char} (h : afterTen0 s = some (k, r)) : r.length ≤ s.length := by
  have h3 := List.dropWhile_sublist isSpace (l := s) |>.length_le
  unfold afterTen0 at h
  split at h
  · rename_i e; have := length_power0 h; rw [e] at h3; simp at h3; omega
  · rename_i e; have := length_power0 h; rw [e] at h3; simp at h3; omega
  · cases h

theorem length_ten0 {s k r : List Char} (h : ten0 s = some (k, r)) : r.length < s.length := by
  unfold ten0 at h
  split at h
  · have := length_afterTen0 h; simp; omega
  · cases h

theorem length_times0 {s k r : List Char} (h : times0 s = some (k, r)) : r.length < s.length := by
  have h3 := List.dropWhile_sublist isSpace (l := s) |>.length_le
  unfold times0 at h
  split at h
  · rename_i u e
    have := length_ten0 h
    have h4 := List.dropWhile_sublist isSpace (l := u) |>.length_le
    rw [e] at h3; simp at h3; omega
  · cases h

theorem length_hit {s m k r : List Char} (h : hit s = some (m, k, r)) : r.length < s.length := by
  unfold hit at h
  split at h
  · rename_i d hd
    cases h
    unfold scaled0 at hd
    split at hd
    · rename_i t u hn
      obtain ⟨rfl, _⟩ := number_split hn
      cases ht : times0 u with
      | none => rw [ht] at hd; cases hd
      | some p =>
        rw [ht] at hd
        cases hd
        have := length_times0 (k := p.1) (r := p.2) ht
        simp; omega
    · cases hd
  · cases ht : ten0 s with
    | none => rw [ht] at h; cases h
    | some p =>
      rw [ht] at h
      cases h
      exact length_ten0 (k := p.1) (r := p.2) ht

/-- the walk: `b` says whether the character before is a word character -/
def scanN : Nat → Bool → List Char → List Char
  | 0, _, s => s
  | _ + 1, _, [] => []
  | n + 1, b, x :: xs => if b = isWord x then x :: scanN n (isWord x) xs else match hit (x :: xs) with
    | some (m, k, r) => m ++ 'e' :: (k ++ scanN n true r)
    | none => x :: scanN n (isWord x) xs

def scan (b : Bool) (s : List Char) : List Char := scanN s.length b s

theorem scanN_le {n m : Nat} {b : Bool} {s : List Char} (h1 : s.length ≤ n) (h2 : s.length ≤ m) : scanN n b s = scanN m b s := by
  induction n generalizing m b s with
  | zero =>
    have : s = [] := by cases s with | nil => rfl | cons x xs => simp at h1
    subst this
    cases m <;> rfl
  | succ n ih =>
    cases s with
    | nil => cases m <;> rfl
    | cons x xs =>
      cases m with
      | zero => simp at h2
      | succ m =>
        simp only [List.length_cons, Nat.add_le_add_iff_right] at h1 h2
        simp only [scanN]
        rw [ih h1 h2]
        split
        · rfl
        · cases hh : hit (x :: xs) with
          | none => rfl
          | some p =>
            obtain ⟨m', k, r⟩ := p
            have := length_hit hh
            simp only [List.length_cons] at this
            simp only
            rw [ih (m := m) (b := true) (s := r) (by omega) (by omega)]

@[simp] theorem scan_nil (b : Bool) : scan b [] = [] := rfl

/-- nothing is matched between characters of the same kind -/
theorem scan_inside {b : Bool} {x : Char} {xs : List Char} (h : b = isWord x) : scan b (x :: xs) = x :: scan (isWord x) xs := by
  show scanN (xs.length + 1) b (x :: xs) = _
  simp only [scanN]
  rw [if_pos h]
  rfl

theorem scan_none {b : Bool} {x : Char} {xs : List Char} (h : hit (x :: xs) = none) : scan b (x :: xs) = x :: scan (isWord x) xs := by
  show scanN (xs.length + 1) b (x :: xs) = _
  simp only [scanN, h, ite_self]
  rfl

theorem scan_hit {b : Bool} {x : Char} {xs m k r : List Char} (hb : b ≠ isWord x) (h : hit (x :: xs) = some (m, k, r)) :
    scan b (x :: xs) = m ++ 'e' :: (k ++ scan true r) := by
  show scanN (xs.length + 1) b (x :: xs) = _
  simp only [scanN, h, if_neg hb]
  have := length_hit h
  simp only [List.length_cons] at this
  rw [scanN_le (m := r.length) (by omega) (Nat.le_refl _)]
  rfl

theorem subN_scan (n : Nat) (pv : Option Char) (s : List Char) : sciRe.subN asScientific n pv s = scanN n (wordy pv) s := by
  induction n generalizing pv s with
  | zero => rfl
  | succ n ih =>
    cases s with
    | nil => rfl
    | cons x xs =>
      simp only [Re.subN, scanN]
      rcases here_hit pv (x :: xs) with ⟨h1, h2⟩ | ⟨hb, d, m, k, r, h1, h2, h3, h4, h5⟩
      · rw [h1]
        simp only [ih]
        have : wordy (some x) = isWord x := rfl
        rw [this]
        rcases h2 with h2 | h2
        · rw [if_pos]
          simpa [boundary, wordy] using h2
        · rw [h2]
          simp
      · rw [h1, if_neg, h5]
        · simp only [ih, h3, h4, ← h2, List.append_assoc, List.cons_append]
        · simpa [boundary, wordy] using hb

/-- the preprocessor is the walk from the start of the text -/
theorem preprocess_scan (s : List Char) : preprocess s = scan false s := subN_scan _ _ _

/-- a match begins with a digit or a dot -/
theorem hit_head {x : Char} {xs : List Char} (h1 : x.isDigit = false) (h2 : x ≠ '.') : hit (x :: xs) = none := by
  have hn : number (x :: xs) = none := by
    unfold number
    rw [if_pos (by simp [List.takeWhile_cons, h1])]
    split
    · rename_i e; cases e; exact absurd rfl h2
    · rfl
  have ht : ten0 (x :: xs) = none := by
    unfold ten0
    split
    · rename_i e; cases e; exact absurd h1 (by decide)
    · rfl
  simp [hit, scaled0, hn, ht]

theorem scan_other {b : Bool} {x : Char} {xs : List Char} (h1 : x.isDigit = false) (h2 : x ≠ '.') : scan b (x :: xs) = x :: scan (isWord x) xs :=
  scan_none (hit_head h1 h2)

/-- the rest of a word is copied -/
theorem scan_word {t u : List Char} (ht : t.all isWord = true) : scan true (t ++ u) = t ++ scan true u := by
  induction t with
  | nil => rfl
  | cons x xs ih =>
    simp only [List.all_cons, Bool.and_eq_true] at ht
    rw [List.cons_append, scan_inside ht.1.symm, ht.1, ih ht.2, List.cons_append]

theorem space_word {x : Char} (h : isSpace x = true) : isWord x = false := by
  simp only [isSpace, Bool.or_eq_true, beq_iff_eq] at h
  rcases h with ((((rfl | rfl) | rfl) | rfl) | rfl) | rfl <;> decide

/-- spaces are copied -/
theorem scan_space {b : Bool} {w u : List Char} (hw : w.all isSpace = true) : scan b (w ++ u) = w ++ scan (if w = [] then b else false) u := by
  induction w generalizing b with
  | nil => rfl
  | cons x xs ih =>
    simp only [List.all_cons, Bool.and_eq_true] at hw
    obtain ⟨h1, _, _, _, _, _, h7⟩ := isDigit_not_space hw.1
    rw [List.cons_append, scan_other h1 h7, space_word hw.1, ih hw.2, List.cons_append]
    simp

end Verif.SciNotation
