import Verif.Model.SciNotation
import Verif.Props.Regex
/-!
# The expression of `_scientific_notation_preprocessor` matches in at most one way
-/

set_option linter.unusedSimpArgs false
set_option linter.unusedVariables false

namespace Verif.SciNotation
open Verif.Py Verif.Regex

/-- `-?` -/
def sign : List Char → List Char × List Char
  | '-' :: s => (['-'], s)
  | s => ([], s)

/-- `\+?` -/
def plus : List Char → List Char
  | '+' :: s => s
  | s => s

/-- `(-?\d+\b)` -/
def exponent (g : List (Nat × List Char)) (s : List Char) : Option At :=
  if (sign s).2.takeWhile Char.isDigit = [] ∨ wordy ((sign s).2.dropWhile Char.isDigit).head? = true then none
  else some ⟨last none ((sign s).2.takeWhile Char.isDigit), (sign s).2.dropWhile Char.isDigit,
    (2, (sign s).1 ++ (sign s).2.takeWhile Char.isDigit) :: g⟩

/-- `\s*\+?(-?\d+\b)` -/
def power (g : List (Nat × List Char)) (s : List Char) : Option At := exponent g (plus (s.dropWhile isSpace))

/-- `\s*(?:\*{2}|\^)\s*\+?(-?\d+\b)` -/
def afterTen (g : List (Nat × List Char)) (s : List Char) : Option At := match s.dropWhile isSpace with
  | '*' :: '*' :: s => power g s
  | '^' :: s => power g s
  | _ => none

/-- `10\s*(?:\*{2}|\^)\s*\+?(-?\d+\b)` -/
def ten (g : List (Nat × List Char)) : List Char → Option At
  | '1' :: '0' :: s => afterTen g s
  | _ => none

/-- `\d+\.?\d*|\.\d+`, as long as possible -/
def number (s : List Char) : Option (List Char × List Char) :=
  if s.takeWhile Char.isDigit = [] then match s with
    | '.' :: r => if r.takeWhile Char.isDigit = [] then none else some ('.' :: r.takeWhile Char.isDigit, r.dropWhile Char.isDigit)
    | _ => none
  else match s.dropWhile Char.isDigit with
    | '.' :: r => some (s.takeWhile Char.isDigit ++ '.' :: r.takeWhile Char.isDigit, r.dropWhile Char.isDigit)
    | r => some (s.takeWhile Char.isDigit, r)

/-- `\s*\*\s*10...` -/
def times (g : List (Nat × List Char)) (s : List Char) : Option At := match s.dropWhile isSpace with
  | '*' :: r => ten g (r.dropWhile isSpace)
  | _ => none

/-- `(?:(\d+\.?\d*|\.\d+)\s*\*\s*)10...` -/
def scaled (s : List Char) : Option At := match number s with
  | some (t, r) => times [(1, t)] r
  | none => none

/-- the whole expression -/
def sciHere (prev : Option Char) (s : List Char) : Option At :=
  if boundary prev s.head? then match scaled s with
    | some d => some d
    | none => ten [] s
  else none

theorem isDigit_not_space {x : Char} (h : isSpace x = true) : x.isDigit = false ∧ x ≠ '*' ∧ x ≠ '^' ∧ x ≠ '+' ∧ x ≠ '-' ∧ x ≠ '1' ∧ x ≠ '.' := by
  simp only [isSpace, Bool.or_eq_true, beq_iff_eq] at h
  rcases h with ((((rfl | rfl) | rfl) | rfl) | rfl) | rfl <;> decide

theorem digit_word {x : Char} (h : x.isDigit = true) : isWord x = true := by simp [isWord, Char.isAlphanum, h]

theorem last_digit {t : List Char} (ht : t.all Char.isDigit = true) (hne : t ≠ []) (pv : Option Char) : wordy (last pv t) = true ∧ last pv t = last none t := by
  induction t generalizing pv with
  | nil => exact absurd rfl hne
  | cons x t ih =>
    simp only [List.all_cons, Bool.and_eq_true] at ht
    simp only [last]
    cases t with
    | nil => simp [last, wordy, digit_word ht.1]
    | cons y t => exact ⟨(ih ht.2 (by simp) (some x)).1, trivial⟩

/-- digits at the end of a word -/
theorem mem_digits {pv : Option Char} {s : List Char} {g : List (Nat × List Char)} {d : At} :
    d ∈ (Re.seq (.plus (.chr Char.isDigit)) .bound).run ⟨pv, s, g⟩ ↔ s.takeWhile Char.isDigit ≠ [] ∧ wordy (s.dropWhile Char.isDigit).head? = false ∧
      d = ⟨last none (s.takeWhile Char.isDigit), s.dropWhile Char.isDigit, g⟩ := by
  rw [mem_seq]
  constructor
  · rintro ⟨e, he, hd⟩
    rw [mem_plus] at he
    obtain ⟨t, u, rfl, hne, ht, rfl⟩ := he
    obtain ⟨h1, h2⟩ := last_digit ht hne pv
    rw [mem_bound] at hd
    obtain ⟨hb, rfl⟩ := hd
    simp only [boundary, h1, bne_iff_ne, ne_eq, Bool.true_eq, Bool.not_eq_true] at hb
    obtain ⟨h3, h4⟩ := takeWhile_append (u := u) ht (by
      rintro x xs rfl
      cases h : x.isDigit with
      | false => rfl
      | true => simp [wordy, digit_word h] at hb)
    rw [h3, h4, h2]
    exact ⟨hne, hb, rfl⟩
  · rintro ⟨hne, hw, rfl⟩
    obtain ⟨h1, h2⟩ := last_digit (all_takeWhile Char.isDigit s) hne pv
    refine ⟨_, mem_plus.2 ⟨s.takeWhile Char.isDigit, s.dropWhile Char.isDigit, List.takeWhile_append_dropWhile.symm, hne, all_takeWhile _ s, rfl⟩, ?_⟩
    rw [mem_bound]
    simp only [boundary, h1, hw]
    exact ⟨rfl, by rw [h2]⟩

theorem take_diff (t u : List Char) : (t ++ u).take ((t ++ u).length - u.length) = t := by simp

theorem mem_exponent {pv : Option Char} {s : List Char} {g : List (Nat × List Char)} {d : At} :
    d ∈ (Re.group 2 exponentRe).run ⟨pv, s, g⟩ ↔ exponent g s = some d := by
  rw [mem_group]
  unfold exponentRe
  simp only [mem_seq, mem_opt, mem_lit]
  have key : ∀ (pre s : List Char) (q : Option Char), (∃ e ∈ (Re.seq (.plus (.chr Char.isDigit)) .bound).run ⟨q, s, g⟩,
      d = { e with groups := (2, (pre ++ s).take ((pre ++ s).length - e.rest.length)) :: e.groups }) ↔
      s.takeWhile Char.isDigit ≠ [] ∧ wordy (s.dropWhile Char.isDigit).head? = false ∧
        d = ⟨last none (s.takeWhile Char.isDigit), s.dropWhile Char.isDigit, (2, pre ++ s.takeWhile Char.isDigit) :: g⟩ := by
    intro pre s q
    have h : (pre ++ s).take ((pre ++ s).length - (s.dropWhile Char.isDigit).length) = pre ++ s.takeWhile Char.isDigit := by
      have := take_diff (pre ++ s.takeWhile Char.isDigit) (s.dropWhile Char.isDigit)
      rw [List.append_assoc, List.takeWhile_append_dropWhile] at this
      exact this
    constructor
    · rintro ⟨e, he, rfl⟩
      rw [mem_digits] at he
      obtain ⟨h1, h2, rfl⟩ := he
      refine ⟨h1, h2, ?_⟩
      simp only [h]
    · rintro ⟨h1, h2, rfl⟩
      refine ⟨_, mem_digits.2 ⟨h1, h2, rfl⟩, ?_⟩
      simp only [h]
  have fin : ∀ (pre s : List Char), (s.takeWhile Char.isDigit ≠ [] ∧ wordy (s.dropWhile Char.isDigit).head? = false ∧
        d = ⟨last none (s.takeWhile Char.isDigit), s.dropWhile Char.isDigit, (2, pre ++ s.takeWhile Char.isDigit) :: g⟩) ↔
      (if s.takeWhile Char.isDigit = [] ∨ wordy (s.dropWhile Char.isDigit).head? = true then none
        else some (⟨last none (s.takeWhile Char.isDigit), s.dropWhile Char.isDigit, (2, pre ++ s.takeWhile Char.isDigit) :: g⟩ : At)) = some d := by
    intro pre s
    split
    · rename_i h
      simp only [reduceCtorEq, iff_false]
      rintro ⟨h1, h2, _⟩
      rcases h with h | h
      · exact h1 h
      · rw [h2] at h; cases h
    · rename_i h
      simp only [not_or, Bool.not_eq_true] at h
      simp only [Option.some.injEq]
      exact ⟨fun h' => h'.2.2.symm, fun h' => ⟨h.1, h.2, h'.symm⟩⟩
  unfold exponent
  by_cases hs : ∃ r, s = '-' :: r
  · obtain ⟨r, rfl⟩ := hs
    simp only [sign]
    rw [← fin ['-'] r, ← key ['-'] r (some '-')]
    constructor
    · rintro ⟨e, ⟨f, (⟨xs, hx, rfl⟩ | rfl), he⟩, hd⟩
      · cases hx
        exact ⟨e, mem_seq.2 he, hd⟩
      · have := (mem_digits.1 (mem_seq.2 he)).1
        exact absurd (by simp [List.takeWhile_cons]) this
    · rintro ⟨e, he, hd⟩
      exact ⟨e, ⟨_, .inl ⟨r, rfl, rfl⟩, mem_seq.1 he⟩, hd⟩
  · have hsg : sign s = ([], s) := by
      unfold sign
      split
      · exact absurd ⟨_, rfl⟩ hs
      · rfl
    simp only [hsg]
    rw [← fin [] s, ← key [] s pv]
    constructor
    · rintro ⟨e, ⟨f, (⟨xs, hx, rfl⟩ | rfl), he⟩, hd⟩
      · exact absurd ⟨_, hx⟩ hs
      · exact ⟨e, mem_seq.2 he, by simpa using hd⟩
    · rintro ⟨e, he, hd⟩
      exact ⟨e, ⟨_, .inr rfl, mem_seq.1 he⟩, by simpa using hd⟩

theorem mem_plusExp {pv : Option Char} {s : List Char} {g : List (Nat × List Char)} {d : At} :
    d ∈ (Re.seq (.opt (.lit '+')) (.group 2 exponentRe)).run ⟨pv, s, g⟩ ↔ exponent g (plus s) = some d := by
  rw [mem_seq]
  simp only [mem_opt, mem_lit]
  by_cases hs : ∃ r, s = '+' :: r
  · obtain ⟨r, rfl⟩ := hs
    simp only [plus]
    constructor
    · rintro ⟨e, (⟨xs, hx, rfl⟩ | rfl), he⟩
      · cases hx; exact mem_exponent.1 he
      · have := mem_exponent.1 he
        simp [exponent, sign, List.takeWhile_cons] at this
    · intro h
      exact ⟨_, .inl ⟨r, rfl, rfl⟩, mem_exponent.2 h⟩
  · have hp : plus s = s := by
      unfold plus
      split
      · exact absurd ⟨_, rfl⟩ hs
      · rfl
    rw [hp]
    constructor
    · rintro ⟨e, (⟨xs, hx, rfl⟩ | rfl), he⟩
      · exact absurd ⟨_, hx⟩ hs
      · exact mem_exponent.1 he
    · intro h
      exact ⟨_, .inr rfl, mem_exponent.2 h⟩

theorem exponent_space {x : Char} {xs : List Char} {g : List (Nat × List Char)} (hx : isSpace x = true) : exponent g (plus (x :: xs)) = none := by
  obtain ⟨h1, _, _, h4, h5, _⟩ := isDigit_not_space hx
  have hp : plus (x :: xs) = x :: xs := by
    unfold plus; split
    · rename_i h; cases h; exact absurd rfl h4
    · rfl
  have hs : sign (x :: xs) = ([], x :: xs) := by
    unfold sign; split
    · rename_i h; cases h; exact absurd rfl h5
    · rfl
  rw [hp]
  unfold exponent
  rw [hs]
  simp [List.takeWhile_cons, h1]

theorem mem_power {pv : Option Char} {s : List Char} {g : List (Nat × List Char)} {d : At} :
    d ∈ (Re.seq (.star (.chr isSpace)) (.seq (.opt (.lit '+')) (.group 2 exponentRe))).run ⟨pv, s, g⟩ ↔ power g s = some d := by
  rw [mem_star_seq]
  · exact mem_plusExp
  · intro pv x xs g hx
    rw [List.eq_nil_iff_forall_not_mem]
    intro d hd
    have := mem_plusExp.1 hd
    rw [exponent_space hx] at this
    cases this

theorem mem_pow {pv : Option Char} {s : List Char} {g : List (Nat × List Char)} {d : At} :
    d ∈ powRe.run ⟨pv, s, g⟩ ↔ (∃ r, s = '*' :: '*' :: r ∧ d = ⟨some '*', r, g⟩) ∨ ∃ r, s = '^' :: r ∧ d = ⟨some '^', r, g⟩ := by
  unfold powRe
  simp only [mem_alt, mem_seq, mem_lit]
  constructor
  · rintro (⟨e, ⟨r, rfl, rfl⟩, hd⟩ | h)
    · rw [mem_lit] at hd
      obtain ⟨r', rfl, rfl⟩ := hd
      exact .inl ⟨r', rfl, rfl⟩
    · exact .inr h
  · rintro (⟨r, rfl, rfl⟩ | h)
    · exact .inl ⟨_, ⟨_, rfl, rfl⟩, mem_lit.2 ⟨_, rfl, rfl⟩⟩
    · exact .inr h

theorem mem_afterTen {pv : Option Char} {s : List Char} {g : List (Nat × List Char)} {d : At} :
    d ∈ (Re.seq (.star (.chr isSpace)) (.seq powRe (.seq (.star (.chr isSpace)) (.seq (.opt (.lit '+')) (.group 2 exponentRe))))).run ⟨pv, s, g⟩ ↔
      afterTen g s = some d := by
  rw [mem_star_seq]
  · rw [mem_seq]
    unfold afterTen
    simp only [mem_pow]
    constructor
    · rintro ⟨e, (⟨r, hr, rfl⟩ | ⟨r, hr, rfl⟩), hd⟩ <;> rw [hr] <;> exact mem_power.1 hd
    · intro h
      split at h
      · rename_i r hr
        exact ⟨_, .inl ⟨r, hr, rfl⟩, mem_power.2 h⟩
      · rename_i r hr
        exact ⟨_, .inr ⟨r, hr, rfl⟩, mem_power.2 h⟩
      · cases h
  · intro pv x xs g hx
    rw [List.eq_nil_iff_forall_not_mem]
    intro d hd
    rw [mem_seq] at hd
    obtain ⟨e, he, _⟩ := hd
    obtain ⟨_, h2, h3, _⟩ := isDigit_not_space hx
    rw [mem_pow] at he
    rcases he with ⟨r, e, _⟩ | ⟨r, e, _⟩ <;> cases e <;> contradiction

/-- what follows the optional factor -/
def tenRe : Re := .seq (.lit '1') (.seq (.lit '0') (.seq (.star (.chr isSpace)) (.seq powRe
  (.seq (.star (.chr isSpace)) (.seq (.opt (.lit '+')) (.group 2 exponentRe))))))

theorem mem_ten {pv : Option Char} {s : List Char} {g : List (Nat × List Char)} {d : At} : d ∈ tenRe.run ⟨pv, s, g⟩ ↔ ten g s = some d := by
  unfold tenRe
  rw [mem_seq]
  simp only [mem_lit]
  constructor
  · rintro ⟨e, ⟨r, rfl, rfl⟩, hd⟩
    rw [mem_seq] at hd
    simp only [mem_lit] at hd
    obtain ⟨e, ⟨r, rfl, rfl⟩, hd⟩ := hd
    exact mem_afterTen.1 hd
  · intro h
    unfold ten at h
    split at h
    · rename_i r
      refine ⟨_, ⟨_, rfl, rfl⟩, ?_⟩
      rw [mem_seq]
      exact ⟨_, mem_lit.2 ⟨_, rfl, rfl⟩, mem_afterTen.2 h⟩
    · cases h

theorem mem_times {pv : Option Char} {s : List Char} {g : List (Nat × List Char)} {d : At} :
    d ∈ (Re.seq (.star (.chr isSpace)) (.seq (.lit '*') (.seq (.star (.chr isSpace)) tenRe))).run ⟨pv, s, g⟩ ↔ times g s = some d := by
  have inner : ∀ {pv : Option Char} {s : List Char} {g : List (Nat × List Char)} {d : At},
      d ∈ (Re.seq (.star (.chr isSpace)) tenRe).run ⟨pv, s, g⟩ ↔ ten g (s.dropWhile isSpace) = some d := by
    intro pv s g d
    rw [mem_star_seq]
    · exact mem_ten
    · intro pv x xs g hx
      rw [List.eq_nil_iff_forall_not_mem]
      intro d hd
      have := mem_ten.1 hd
      obtain ⟨_, _, _, _, _, h6, _⟩ := isDigit_not_space hx
      unfold ten at this
      split at this
      · rename_i h; cases h; exact h6 rfl
      · cases this
  rw [mem_star_seq]
  · rw [mem_seq]
    unfold times
    simp only [mem_lit]
    constructor
    · rintro ⟨e, ⟨r, hr, rfl⟩, hd⟩
      rw [hr]
      exact inner.1 hd
    · intro h
      split at h
      · rename_i r hr
        exact ⟨_, ⟨r, hr, rfl⟩, inner.2 h⟩
      · cases h
  · intro pv x xs g hx
    rw [List.eq_nil_iff_forall_not_mem]
    intro d hd
    rw [mem_seq] at hd
    obtain ⟨e, he, _⟩ := hd
    obtain ⟨_, h2, h3, _⟩ := isDigit_not_space hx
    rw [mem_lit] at he
    obtain ⟨r, e, _⟩ := he
    cases e
    exact h2 rfl

/-- what `times` begins with -/
theorem times_head {g : List (Nat × List Char)} {x : Char} {xs : List Char} {d : At} (h : times g (x :: xs) = some d) : x.isDigit = false ∧ x ≠ '.' := by
  by_cases hx : isSpace x = true
  · obtain ⟨h1, _, _, _, _, _, h7⟩ := isDigit_not_space hx
    exact ⟨h1, h7⟩
  · unfold times at h
    rw [List.dropWhile_cons, if_neg hx] at h
    split at h
    · rename_i e
      cases e
      decide
    · cases h

/-- the texts of `\d+\.?\d*|\.\d+` -/
inductive IsNumber : List Char → Prop where
  | int (ds : List Char) : ds ≠ [] → ds.all Char.isDigit = true → IsNumber ds
  | frac (ds fs : List Char) : ds ≠ [] → ds.all Char.isDigit = true → fs.all Char.isDigit = true → IsNumber (ds ++ '.' :: fs)
  | dot (fs : List Char) : fs ≠ [] → fs.all Char.isDigit = true → IsNumber ('.' :: fs)

theorem mem_number {pv : Option Char} {s : List Char} {g : List (Nat × List Char)} {d : At} :
    d ∈ (Re.group 1 numberRe).run ⟨pv, s, g⟩ ↔ ∃ t u, s = t ++ u ∧ IsNumber t ∧ d = ⟨last pv t, u, (1, t) :: g⟩ := by
  rw [mem_group]
  unfold numberRe
  simp only [mem_alt]
  have first : ∀ e : At, e ∈ (Re.seq (.plus (.chr Char.isDigit)) (.seq (.opt (.lit '.')) (.star (.chr Char.isDigit)))).run ⟨pv, s, g⟩ ↔
      ∃ t u, s = t ++ u ∧ (∃ ds fs, ds ≠ [] ∧ ds.all Char.isDigit = true ∧ fs.all Char.isDigit = true ∧ (t = ds ++ fs ∨ t = ds ++ '.' :: fs)) ∧ e = ⟨last pv t, u, g⟩ := by
    intro e
    rw [mem_seq]
    constructor
    · rintro ⟨e1, h1, h2⟩
      rw [mem_plus] at h1
      obtain ⟨ds, u, rfl, hne, hds, rfl⟩ := h1
      rw [mem_seq] at h2
      obtain ⟨e2, h3, h4⟩ := h2
      rw [mem_opt, mem_lit] at h3
      rcases h3 with ⟨r, rfl, rfl⟩ | rfl
      · rw [mem_star] at h4
        obtain ⟨fs, u, rfl, hfs, rfl⟩ := h4
        exact ⟨ds ++ '.' :: fs, u, by simp, ⟨ds, fs, hne, hds, hfs, .inr rfl⟩, by simp [last_append, last]⟩
      · rw [mem_star] at h4
        obtain ⟨fs, u, rfl, hfs, rfl⟩ := h4
        exact ⟨ds ++ fs, u, by simp, ⟨ds, fs, hne, hds, hfs, .inl rfl⟩, by simp [last_append]⟩
    · rintro ⟨t, u, rfl, ⟨ds, fs, hne, hds, hfs, rfl | rfl⟩, rfl⟩
      · refine ⟨_, mem_plus.2 ⟨ds, fs ++ u, by simp, hne, hds, rfl⟩, ?_⟩
        rw [mem_seq]
        exact ⟨_, mem_opt.2 (.inr rfl), mem_star.2 ⟨fs, u, rfl, hfs, by simp [last_append]⟩⟩
      · refine ⟨_, mem_plus.2 ⟨ds, '.' :: fs ++ u, by simp, hne, hds, rfl⟩, ?_⟩
        rw [mem_seq]
        exact ⟨_, mem_opt.2 (.inl (mem_lit.2 ⟨_, rfl, rfl⟩)), mem_star.2 ⟨fs, u, rfl, hfs, by simp [last_append, last]⟩⟩
  have second : ∀ e : At, e ∈ (Re.seq (.lit '.') (.plus (.chr Char.isDigit))).run ⟨pv, s, g⟩ ↔
      ∃ t u, s = t ++ u ∧ (∃ fs, fs ≠ [] ∧ fs.all Char.isDigit = true ∧ t = '.' :: fs) ∧ e = ⟨last pv t, u, g⟩ := by
    intro e
    rw [mem_seq]
    constructor
    · rintro ⟨e1, h1, h2⟩
      rw [mem_lit] at h1
      obtain ⟨r, rfl, rfl⟩ := h1
      rw [mem_plus] at h2
      obtain ⟨fs, u, rfl, hne, hfs, rfl⟩ := h2
      exact ⟨'.' :: fs, u, rfl, ⟨fs, hne, hfs, rfl⟩, rfl⟩
    · rintro ⟨t, u, rfl, ⟨fs, hne, hfs, rfl⟩, rfl⟩
      exact ⟨_, mem_lit.2 ⟨_, rfl, rfl⟩, mem_plus.2 ⟨fs, u, rfl, hne, hfs, rfl⟩⟩
  constructor
  · rintro ⟨e, h | h, rfl⟩
    · obtain ⟨t, u, rfl, ⟨ds, fs, hne, hds, hfs, ht⟩, rfl⟩ := (first e).1 h
      refine ⟨t, u, rfl, ?_, by simp⟩
      rcases ht with rfl | rfl
      · exact .int _ (by simp [hne]) (by simp only [List.all_append, hds, hfs, Bool.and_self])
      · exact .frac ds fs hne hds hfs
    · obtain ⟨t, u, rfl, ⟨fs, hne, hfs, rfl⟩, rfl⟩ := (second e).1 h
      exact ⟨'.' :: fs, u, rfl, .dot fs hne hfs, by simp only [take_diff]⟩
  · rintro ⟨t, u, rfl, ht, rfl⟩
    refine ⟨⟨last pv t, u, g⟩, ?_, by simp⟩
    cases ht with
    | int _ hne hds => exact .inl ((first _).2 ⟨t, u, rfl, ⟨t, [], hne, hds, rfl, .inl (by simp)⟩, rfl⟩)
    | frac ds fs hne hds hfs => exact .inl ((first _).2 ⟨_, u, rfl, ⟨ds, fs, hne, hds, hfs, .inr rfl⟩, rfl⟩)
    | dot fs hne hfs => exact .inr ((second _).2 ⟨_, u, rfl, ⟨fs, hne, hfs, rfl⟩, rfl⟩)

/-- a number that is not followed by a digit or dot is the longest -/
theorem number_append {t u : List Char} (ht : IsNumber t) (hu : ∀ x xs, u = x :: xs → x.isDigit = false ∧ x ≠ '.') : number (t ++ u) = some (t, u) := by
  have hu1 : ∀ x xs, u = x :: xs → x.isDigit = false := fun x xs h => (hu x xs h).1
  unfold number
  cases ht with
  | int _ hne hds =>
    obtain ⟨h1, h2⟩ := takeWhile_append hds hu1
    rw [h1, h2, if_neg hne]
    split
    · exact absurd rfl (hu _ _ rfl).2
    · rfl
  | frac ds fs hne hds hfs =>
    obtain ⟨h1, h2⟩ := takeWhile_append (u := '.' :: (fs ++ u)) hds (by intro x xs h; cases h; decide)
    rw [List.append_assoc, List.cons_append, h1, h2, if_neg hne]
    obtain ⟨h3, h4⟩ := takeWhile_append hfs hu1
    simp only [h3, h4]
  | dot fs hne hfs =>
    obtain ⟨h3, h4⟩ := takeWhile_append hfs hu1
    have : List.takeWhile Char.isDigit ('.' :: fs ++ u) = [] := by simp [List.takeWhile_cons]
    rw [if_pos this]
    simp only [List.cons_append, h3, h4, if_neg hne]

theorem number_split {s t r : List Char} (h : number s = some (t, r)) : s = t ++ r ∧ IsNumber t := by
  unfold number at h
  split at h
  · split at h
    · split at h
      · cases h
      · rename_i hne
        cases h
        exact ⟨by simp [List.takeWhile_append_dropWhile], .dot _ hne (all_takeWhile _ _)⟩
    · cases h
  · rename_i hne
    have hd := (List.takeWhile_append_dropWhile (p := Char.isDigit) (l := s))
    split at h
    · rename_i r' hr
      cases h
      refine ⟨?_, .frac _ _ hne (all_takeWhile _ _) (all_takeWhile _ _)⟩
      rw [List.append_assoc, List.cons_append, List.takeWhile_append_dropWhile, ← hr, hd]
    · cases h
      exact ⟨hd.symm, .int _ hne (all_takeWhile _ _)⟩

theorem mem_scaled {pv : Option Char} {s : List Char} {d : At} :
    d ∈ (Re.seq (.seq (.group 1 numberRe) (.seq (.star (.chr isSpace)) (.seq (.lit '*') (.star (.chr isSpace))))) tenRe).run ⟨pv, s, []⟩ ↔ scaled s = some d := by
  have assoc : d ∈ (Re.seq (.seq (.group 1 numberRe) (.seq (.star (.chr isSpace)) (.seq (.lit '*') (.star (.chr isSpace))))) tenRe).run ⟨pv, s, []⟩ ↔
      ∃ e ∈ (Re.group 1 numberRe).run ⟨pv, s, []⟩, d ∈ (Re.seq (.star (.chr isSpace)) (.seq (.lit '*') (.seq (.star (.chr isSpace)) tenRe))).run e := by
    simp only [mem_seq]
    constructor
    · rintro ⟨a, ⟨b, hb, c, hc, e, he, f⟩, g⟩; exact ⟨b, hb, c, hc, e, he, a, f, g⟩
    · rintro ⟨b, hb, c, hc, e, he, a, f, g⟩; exact ⟨a, ⟨b, hb, c, hc, e, he, f⟩, g⟩
  rw [assoc]
  simp only [mem_number]
  unfold scaled
  constructor
  · rintro ⟨e, ⟨t, u, rfl, ht, rfl⟩, hd⟩
    rw [mem_times] at hd
    rw [number_append ht (by rintro x xs rfl; exact times_head hd)]
    exact hd
  · intro h
    split at h
    · rename_i t r hn
      obtain ⟨rfl, ht⟩ := number_split hn
      exact ⟨_, ⟨t, r, rfl, ht, rfl⟩, mem_times.2 h⟩
    · cases h

/-- a factor that can be matched with its power of ten is matched; there is no second way -/
theorem scaled_ten {s : List Char} {d e : At} (h1 : scaled s = some d) (h2 : ten [] s = some e) : False := by
  unfold ten at h2
  split at h2
  · rename_i r
    unfold scaled at h1
    split at h1
    · rename_i t u hn
      obtain ⟨hs, ht⟩ := number_split hn
      -- the number is `10` and more
      unfold afterTen at h2
      have hr : ∀ x xs, r = x :: xs → x.isDigit = false ∧ x ≠ '.' := by
        rintro x xs rfl
        by_cases hx : isSpace x = true
        · exact ⟨(isDigit_not_space hx).1, (isDigit_not_space hx).2.2.2.2.2.2⟩
        · rw [List.dropWhile_cons, if_neg hx] at h2
          split at h2
          · rename_i e; cases e; decide
          · rename_i e; cases e; decide
          · cases h2
      have h10 : number (['1', '0'] ++ r) = some (['1', '0'], r) := number_append (.int _ (by simp) (by decide)) hr
      simp only [List.cons_append, List.nil_append] at h10
      rw [h10] at hn
      cases hn
      -- then both `*` and `**` or `^` follow
      unfold times at h1
      split at h2
      · rename_i r' hr'
        rw [hr'] at h1
        have : ten [(1, ['1', '0'])] (List.dropWhile isSpace ('*' :: r')) = none := by
          rw [List.dropWhile_cons, if_neg (by decide)]
          rfl
        replace h1 : ten [(1, ['1', '0'])] (List.dropWhile isSpace ('*' :: r')) = some d := h1
        rw [this] at h1
        cases h1
      · rename_i r' hr'
        rw [hr'] at h1
        cases h1
      · cases h2
    · cases h1
  · cases h2

theorem here_sci (pv : Option Char) (s : List Char) : sciRe.here pv s = sciHere pv s := by
  apply here_eq
  intro d
  show d ∈ (Re.seq .bound (.seq factorRe tenRe)).run ⟨pv, s, []⟩ ↔ _
  rw [mem_seq]
  simp only [mem_bound]
  have h2 : d ∈ (Re.seq factorRe tenRe).run ⟨pv, s, []⟩ ↔ scaled s = some d ∨ ten [] s = some d := by
    rw [← mem_scaled (pv := pv), ← mem_ten (pv := pv), mem_seq]
    unfold factorRe
    simp only [mem_opt]
    constructor
    · rintro ⟨e, h | rfl, hd⟩
      · exact .inl (mem_seq.2 ⟨e, h, hd⟩)
      · exact .inr hd
    · rintro (h | h)
      · obtain ⟨e, h, hd⟩ := mem_seq.1 h
        exact ⟨e, .inl h, hd⟩
      · exact ⟨_, .inr rfl, h⟩
  unfold sciHere
  constructor
  · rintro ⟨e, ⟨hb, rfl⟩, hd⟩
    rw [if_pos hb]
    rcases h2.1 hd with h | h
    · rw [h]
    · split
      · rename_i e he
        exact absurd h (fun h => scaled_ten he h)
      · exact h
  · intro h
    split at h
    · rename_i hb
      refine ⟨_, ⟨hb, rfl⟩, h2.2 ?_⟩
      split at h
      · rename_i e he
        cases h
        exact .inl he
      · exact .inr h
    · cases h

end Verif.SciNotation
