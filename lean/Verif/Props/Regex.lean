import Verif.Model.Regex
/-!
# What the matcher matches, expression by expression
-/

set_option linter.unusedSimpArgs false
set_option linter.unusedVariables false

namespace Verif.Regex
open Verif.Py Verif.Strings

/-- the last character of a text, or the one before it -/
def last (prev : Option Char) : List Char → Option Char
  | [] => prev
  | c :: cs => last (some c) cs

theorem last_append (pv : Option Char) (t u : List Char) : last pv (t ++ u) = last (last pv t) u := by
  induction t generalizing pv with
  | nil => rfl
  | cons x xs ih => simp only [List.cons_append, last]; exact ih _

@[simp] theorem mem_eps {c d : At} : d ∈ Re.eps.run c ↔ d = c := by simp [Re.run]

theorem mem_chr {p : Char → Bool} {pv : Option Char} {s : List Char} {g : List (Nat × List Char)} {d : At} :
    d ∈ (Re.chr p).run ⟨pv, s, g⟩ ↔ ∃ x xs, s = x :: xs ∧ p x = true ∧ d = ⟨some x, xs, g⟩ := by
  cases s with
  | nil => simp [Re.run]
  | cons x xs =>
    simp only [Re.run]
    split
    · rename_i h
      simp only [List.mem_cons, List.not_mem_nil, or_false]
      exact ⟨fun e => ⟨x, xs, rfl, h, e⟩, by rintro ⟨_, _, e, _, rfl⟩; cases e; rfl⟩
    · rename_i h
      simp only [List.not_mem_nil, false_iff]
      rintro ⟨_, _, e, h', _⟩
      cases e
      exact h h'

theorem mem_lit {x : Char} {pv : Option Char} {s : List Char} {g : List (Nat × List Char)} {d : At} :
    d ∈ (Re.lit x).run ⟨pv, s, g⟩ ↔ ∃ xs, s = x :: xs ∧ d = ⟨some x, xs, g⟩ := by
  unfold Re.lit
  rw [mem_chr]
  constructor
  · rintro ⟨y, xs, rfl, h, rfl⟩
    simp only [beq_iff_eq] at h
    subst h
    exact ⟨xs, rfl, rfl⟩
  · rintro ⟨xs, rfl, rfl⟩
    exact ⟨x, xs, rfl, by simp, rfl⟩

theorem mem_seq {a b : Re} {c d : At} : d ∈ (Re.seq a b).run c ↔ ∃ e ∈ a.run c, d ∈ b.run e := by simp [Re.run, List.mem_flatMap]

theorem mem_alt {a b : Re} {c d : At} : d ∈ (Re.alt a b).run c ↔ d ∈ a.run c ∨ d ∈ b.run c := by simp [Re.run]

theorem mem_opt {a : Re} {c d : At} : d ∈ (Re.opt a).run c ↔ d ∈ a.run c ∨ d = c := by simp [Re.opt, mem_alt]

theorem mem_bound {c d : At} : d ∈ Re.bound.run c ↔ boundary c.prev c.rest.head? = true ∧ d = c := by
  simp only [Re.run]
  split
  · rename_i h; simp [h]
  · rename_i h; simp [h]

theorem mem_ahead {p : Char → Bool} {c d : At} : d ∈ (Re.ahead p).run c ↔ (∃ x xs, c.rest = x :: xs ∧ p x = true) ∧ d = c := by
  simp only [Re.run]
  cases hc : c.rest with
  | nil => simp
  | cons x xs =>
    by_cases h : p x = true
    · simp [h]
    · simp [h]

theorem mem_group {n : Nat} {a : Re} {c d : At} :
    d ∈ (Re.group n a).run c ↔ ∃ e ∈ a.run c, d = { e with groups := (n, c.rest.take (c.rest.length - e.rest.length)) :: e.groups } := by
  simp only [Re.run, List.mem_map]
  exact ⟨fun ⟨e, h, h'⟩ => ⟨e, h, h'.symm⟩, fun ⟨e, h, h'⟩ => ⟨e, h, h'.symm⟩⟩

/-- repetitions of one character class: any prefix of characters of the class -/
theorem mem_star {p : Char → Bool} {pv : Option Char} {s : List Char} {g : List (Nat × List Char)} {d : At} :
    d ∈ (Re.star (.chr p)).run ⟨pv, s, g⟩ ↔ ∃ t u, s = t ++ u ∧ t.all p = true ∧ d = ⟨last pv t, u, g⟩ := by
  simp only [Re.run]
  suffices h : ∀ n, s.length ≤ n → (d ∈ repeated (Re.chr p).run n ⟨pv, s, g⟩ ↔ ∃ t u, s = t ++ u ∧ t.all p = true ∧ d = ⟨last pv t, u, g⟩) from h _ (Nat.le_refl _)
  intro n
  induction n generalizing pv s with
  | zero =>
    intro hn
    have : s = [] := List.length_eq_zero_iff.1 (by omega)
    subst this
    simp only [repeated, List.mem_cons, List.not_mem_nil, or_false]
    constructor
    · rintro rfl; exact ⟨[], [], rfl, rfl, rfl⟩
    · rintro ⟨t, u, e, _, rfl⟩
      obtain ⟨rfl, rfl⟩ := List.append_eq_nil_iff.1 e.symm
      rfl
  | succ n ih =>
    intro hn
    simp only [repeated, List.mem_append, List.mem_flatMap, List.mem_filter, decide_eq_true_eq, List.mem_cons, List.not_mem_nil, or_false]
    constructor
    · rintro (⟨e, ⟨he, _⟩, hd⟩ | rfl)
      · rw [mem_chr] at he
        obtain ⟨x, xs, rfl, hx, rfl⟩ := he
        rw [ih (by simpa using hn)] at hd
        obtain ⟨t, u, rfl, ht, rfl⟩ := hd
        exact ⟨x :: t, u, rfl, by simp [hx, ht], rfl⟩
      · exact ⟨[], s, rfl, rfl, rfl⟩
    · rintro ⟨t, u, rfl, ht, rfl⟩
      cases t with
      | nil => exact .inr rfl
      | cons x t =>
        simp only [List.all_cons, Bool.and_eq_true] at ht
        refine .inl ⟨⟨some x, t ++ u, g⟩, ⟨mem_chr.2 ⟨x, t ++ u, rfl, ht.1, rfl⟩, by simp⟩, ?_⟩
        rw [ih (by simpa using hn)]
        exact ⟨t, u, rfl, ht.2, rfl⟩

theorem mem_plus {p : Char → Bool} {pv : Option Char} {s : List Char} {g : List (Nat × List Char)} {d : At} :
    d ∈ (Re.plus (.chr p)).run ⟨pv, s, g⟩ ↔ ∃ t u, s = t ++ u ∧ t ≠ [] ∧ t.all p = true ∧ d = ⟨last pv t, u, g⟩ := by
  simp only [Re.plus, mem_seq, mem_chr]
  constructor
  · rintro ⟨e, ⟨x, xs, rfl, hx, rfl⟩, hd⟩
    rw [mem_star] at hd
    obtain ⟨t, u, rfl, ht, rfl⟩ := hd
    exact ⟨x :: t, u, rfl, by simp, by simp [hx, ht], rfl⟩
  · rintro ⟨t, u, rfl, hne, ht, rfl⟩
    cases t with
    | nil => exact absurd rfl hne
    | cons x t =>
      simp only [List.all_cons, Bool.and_eq_true] at ht
      exact ⟨_, ⟨x, t ++ u, rfl, ht.1, rfl⟩, mem_star.2 ⟨t, u, rfl, ht.2, rfl⟩⟩

theorem takeWhile_append {p : Char → Bool} {t u : List Char} (ht : t.all p = true) (hu : ∀ x xs, u = x :: xs → p x = false) :
    (t ++ u).takeWhile p = t ∧ (t ++ u).dropWhile p = u := by
  induction t with
  | nil =>
    cases u with
    | nil => exact ⟨rfl, rfl⟩
    | cons x xs => simp [hu x xs rfl]
  | cons x t ih =>
    simp only [List.all_cons, Bool.and_eq_true] at ht
    simp [ht.1, (ih ht.2).1, (ih ht.2).2]

theorem all_takeWhile (p : Char → Bool) (s : List Char) : (s.takeWhile p).all p = true := by
  induction s with
  | nil => rfl
  | cons x xs ih =>
    simp only [List.takeWhile_cons]
    split
    · rename_i h; simp only [List.all_cons, h, ih, Bool.and_self]
    · rfl

theorem dropWhile_head {p : Char → Bool} {s : List Char} : ∀ x xs, s.dropWhile p = x :: xs → p x = false := by
  induction s with
  | nil => intro x xs h; cases h
  | cons y ys ih =>
    intro x xs h
    simp only [List.dropWhile_cons] at h
    split at h
    · exact ih x xs h
    · rename_i hy
      cases h
      simpa using hy

/-- a repetition that the rest cannot do without: as long as possible -/
theorem mem_star_seq {p : Char → Bool} {r : Re} (hr : ∀ pv x xs g, p x = true → r.run ⟨pv, x :: xs, g⟩ = []) {pv : Option Char} {s : List Char}
    {g : List (Nat × List Char)} {d : At} :
    d ∈ (Re.seq (.star (.chr p)) r).run ⟨pv, s, g⟩ ↔ d ∈ r.run ⟨last pv (s.takeWhile p), s.dropWhile p, g⟩ := by
  rw [mem_seq]
  constructor
  · rintro ⟨e, he, hd⟩
    rw [mem_star] at he
    obtain ⟨t, u, rfl, ht, rfl⟩ := he
    have hu : ∀ x xs, u = x :: xs → p x = false := by
      rintro x xs rfl
      cases h : p x with
      | false => rfl
      | true => rw [hr _ _ _ _ h] at hd; cases hd
    obtain ⟨h1, h2⟩ := takeWhile_append ht hu
    rw [h1, h2]
    exact hd
  · intro h
    exact ⟨_, mem_star.2 ⟨s.takeWhile p, s.dropWhile p, List.takeWhile_append_dropWhile.symm, all_takeWhile p s, rfl⟩, h⟩

theorem mem_plus_seq {p : Char → Bool} {r : Re} (hr : ∀ pv x xs g, p x = true → r.run ⟨pv, x :: xs, g⟩ = []) {pv : Option Char} {s : List Char}
    {g : List (Nat × List Char)} {d : At} :
    d ∈ (Re.seq (.plus (.chr p)) r).run ⟨pv, s, g⟩ ↔ s.takeWhile p ≠ [] ∧ d ∈ r.run ⟨last pv (s.takeWhile p), s.dropWhile p, g⟩ := by
  rw [mem_seq]
  constructor
  · rintro ⟨e, he, hd⟩
    rw [mem_plus] at he
    obtain ⟨t, u, rfl, hne, ht, rfl⟩ := he
    have hu : ∀ x xs, u = x :: xs → p x = false := by
      rintro x xs rfl
      cases h : p x with
      | false => rfl
      | true => rw [hr _ _ _ _ h] at hd; cases hd
    obtain ⟨h1, h2⟩ := takeWhile_append ht hu
    rw [h1, h2]
    exact ⟨hne, hd⟩
  · rintro ⟨hne, h⟩
    exact ⟨_, mem_plus.2 ⟨s.takeWhile p, s.dropWhile p, List.takeWhile_append_dropWhile.symm, hne, all_takeWhile p s, rfl⟩, h⟩

/-- if there is at most one way to match, it is the match -/
theorem here_eq {r : Re} {pv : Option Char} {s : List Char} {o : Option At} (h : ∀ d, d ∈ r.run ⟨pv, s, []⟩ ↔ o = some d) : r.here pv s = o := by
  unfold Re.here
  cases hl : r.run ⟨pv, s, []⟩ with
  | nil =>
    cases o with
    | none => rfl
    | some d => exact absurd ((h d).2 rfl) (by rw [hl]; simp)
  | cons d l => exact ((h d).1 (by rw [hl]; simp)).symm

end Verif.Regex
