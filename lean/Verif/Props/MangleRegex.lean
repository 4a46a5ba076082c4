import Verif.Model.MangleRegex
import Verif.Props.Regex
/-!
# The hand-written matchers do what the regular expressions of the source do
-/

set_option linter.unusedSimpArgs false
set_option linter.unusedVariables false

namespace Verif.Regex

/-- an expression that always matches, if only the empty string -/
def Total (r : Re) : Prop := ∀ c, r.run c ≠ []

theorem total_opt (a : Re) : Total (.opt a) := by
  intro c h
  simp [Re.opt, Re.run] at h

theorem head_flatMap {f : At → List At} (hf : ∀ c, f c ≠ []) (l : List At) : (l.flatMap f).head? = l.head?.bind fun c => (f c).head? := by
  cases l with
  | nil => rfl
  | cons x l =>
    simp only [List.flatMap_cons, List.head?_cons, Option.bind_some]
    cases h : f x with
    | nil => exact absurd h (hf x)
    | cons y t => rfl

theorem head_seq {a b : Re} (hb : Total b) (c : At) : ((Re.seq a b).run c).head? = (a.run c).head?.bind fun d => (b.run d).head? :=
  head_flatMap hb _

theorem total_seq {a b : Re} (ha : Total a) (hb : Total b) : Total (.seq a b) := by
  intro c h
  cases hc : a.run c with
  | nil => exact ha c hc
  | cons d l =>
    simp only [Re.run, hc, List.flatMap_cons, List.append_eq_nil_iff] at h
    exact hb d h.1

theorem head_opt (a : Re) (c : At) : ((Re.opt a).run c).head? = some ((a.run c).head?.getD c) := by
  simp only [Re.opt, Re.run]
  cases a.run c <;> rfl

theorem head_group (n : Nat) (a : Re) (c : At) : ((Re.group n a).run c).head? =
    (a.run c).head?.map fun d => { d with groups := (n, c.rest.take (c.rest.length - d.rest.length)) :: d.groups } := by
  simp only [Re.run, List.head?_map]

theorem run_chr {p : Char → Bool} {x : Char} (h : p x = true) (pv : Option Char) (xs : List Char) (g : List (Nat × List Char)) :
    (Re.chr p).run ⟨pv, x :: xs, g⟩ = [⟨some x, xs, g⟩] := by simp [Re.run, h]

theorem run_look (p : Option Char → Option Char → Bool) (c : At) : (Re.look p).run c = if p c.prev c.rest.head? then [c] else [] := by simp [Re.run]

theorem head_star (p : Char → Bool) (pv : Option Char) (s : List Char) (g : List (Nat × List Char)) :
    ((Re.star (.chr p)).run ⟨pv, s, g⟩).head? = some ⟨last pv (s.takeWhile p), s.dropWhile p, g⟩ := by
  simp only [Re.run]
  suffices h : ∀ n, s.length ≤ n → (repeated (Re.chr p).run n ⟨pv, s, g⟩).head? = some ⟨last pv (s.takeWhile p), s.dropWhile p, g⟩ from h _ (Nat.le_refl _)
  intro n
  induction n generalizing pv s with
  | zero =>
    intro h
    have : s = [] := List.length_eq_zero_iff.1 (by omega)
    subst this
    rfl
  | succ n ih =>
    intro h
    cases s with
    | nil => simp [repeated, Re.run, last]
    | cons x xs =>
      by_cases hx : p x = true
      · rw [repeated, run_chr hx]
        have := ih (some x) xs (by simpa using h)
        simp only [List.length_cons, Nat.lt_succ_self, decide_true, List.filter_cons_of_pos, List.filter_nil, List.flatMap_cons, List.flatMap_nil, List.append_nil,
          List.head?_append, this, Option.some_or, List.takeWhile_cons, hx, if_true, last, List.dropWhile_cons]
      · simp [repeated, Re.run, hx, last]

theorem total_star (p : Char → Bool) : Total (.star (.chr p)) := by
  rintro ⟨pv, s, g⟩ h
  have := head_star p pv s g
  rw [h] at this
  cases this

theorem head_plus (p : Char → Bool) (pv : Option Char) (s : List Char) (g : List (Nat × List Char)) :
    ((Re.plus (.chr p)).run ⟨pv, s, g⟩).head? = if s.takeWhile p = [] then none else some ⟨last pv (s.takeWhile p), s.dropWhile p, g⟩ := by
  rw [Re.plus, head_seq (total_star p)]
  cases s with
  | nil => simp [Re.run]
  | cons x xs =>
    by_cases hx : p x = true
    · rw [run_chr hx, List.head?_cons, Option.bind_some, head_star]
      simp [hx, last]
    · simp [Re.run, hx]

/-- the text that a match has used -/
theorem take_used (t u : List Char) : (t ++ u).take ((t ++ u).length - u.length) = t := by simp

theorem take_takeWhile (p : Char → Bool) (s : List Char) : s.take (s.length - (s.dropWhile p).length) = s.takeWhile p := by
  have := take_used (s.takeWhile p) (s.dropWhile p)
  rwa [List.takeWhile_append_dropWhile] at this

end Verif.Regex

namespace Verif.Mangle
open Verif.Py Verif.Strings Verif.Regex

/-! ## `_unmangle_scaling` -/

/-- group 5 -/
theorem head_space (pv : Option Char) (s : List Char) (g : List (Nat × List Char)) : ∃ pv', (spaceRe.run ⟨pv, s, g⟩).head? =
    some ⟨pv', (matchSpace s).2, if (matchSpace s).1 then (5, ['_']) :: g else g⟩ := by
  rw [spaceRe, head_opt, head_group]
  unfold matchSpace
  split
  · rename_i c cs
    by_cases h : c.isAlpha = true
    · simp [Re.run, Re.lit, h, List.flatMap_cons]
    · simp [Re.run, Re.lit, h, List.flatMap_cons]
  · rename_i h
    refine ⟨pv, ?_⟩
    match s, h with
    | [], _ => simp [Re.run, Re.lit]
    | [x], _ =>
      by_cases hx : x = '_'
      · simp [Re.run, Re.lit, hx]
      · simp [Re.run, Re.lit, hx]
    | x :: y :: t, h =>
      have hx : x ≠ '_' := fun e => h y t (by rw [e])
      simp [Re.run, Re.lit, hx]

/-- group 3 -/
theorem head_frac (pv : Option Char) (s : List Char) (g : List (Nat × List Char)) : ∃ pv', (fracRe.run ⟨pv, s, g⟩).head? =
    some ⟨pv', (matchFrac s).2, match (matchFrac s).1 with | some f => (3, '_' :: f) :: g | none => g⟩ := by
  rw [fracRe, head_opt, head_group]
  have key : ∀ t, ((Re.seq (Re.lit '_') digitsRe).run ⟨pv, '_' :: t, g⟩).head? = (digitsRe.run ⟨some '_', t, g⟩).head? := by
    intro t; simp [Re.run, Re.lit]
  unfold matchFrac
  split
  · rename_i d cs
    rw [key, digitsRe, head_plus]
    by_cases h : d.isDigit = true
    · simp only [List.takeWhile_cons, h, if_true, List.dropWhile_cons, reduceCtorEq, if_false, Option.map_some, Option.getD_some]
      have := take_used ('_' :: d :: cs.takeWhile Char.isDigit) (cs.dropWhile Char.isDigit)
      simp only [List.cons_append, List.takeWhile_append_dropWhile] at this
      rw [this]
      exact ⟨_, rfl⟩
    · simp [h]
  · rename_i h
    refine ⟨pv, ?_⟩
    match s, h with
    | [], _ => simp [Re.run, Re.lit]
    | [x], _ =>
      by_cases hx : x = '_'
      · subst hx
        rw [key, digitsRe, head_plus]
        simp
      · simp [Re.run, Re.lit, hx]
    | x :: y :: t, h =>
      have hx : x ≠ '_' := fun e => h y t (by rw [e])
      simp [Re.run, Re.lit, hx]

/-- group 4 -/
def expGroup (o : Option (Char × Bool × List Char)) (g : List (Nat × List Char)) : List (Nat × List Char) := match o with
  | some (e, neg, ds) => (4, e :: ((if neg then ['_'] else []) ++ ds)) :: g
  | none => g

/-- `_?\d+` -/
theorem head_negDigits (pv : Option Char) (s : List Char) (g : List (Nat × List Char)) :
    ((Re.seq (.opt (.lit '_')) digitsRe).run ⟨pv, s, g⟩).head? = match s with
      | '_' :: t => (digitsRe.run ⟨some '_', t, g⟩).head?
      | s => (digitsRe.run ⟨pv, s, g⟩).head? := by
  have hd : ∀ x, x = '_' → ∀ t, (digitsRe.run ⟨pv, x :: t, g⟩).head? = none := by
    rintro x rfl t
    rw [digitsRe, head_plus]
    simp
  split
  · rename_i t
    have h1 := hd '_' rfl t
    simp only [Re.run, Re.opt, Re.lit, beq_self_eq_true, if_true, List.cons_append, List.nil_append, List.flatMap_cons, List.flatMap_nil, List.append_nil, List.head?_append]
    rw [h1]
    simp
  · rename_i h
    cases s with
    | nil => simp [Re.run, Re.opt, Re.lit]
    | cons x t =>
      have hx : x ≠ '_' := fun e => h t (by rw [e])
      simp [Re.run, Re.opt, Re.lit, hx]

theorem head_exp (pv : Option Char) (s : List Char) (g : List (Nat × List Char)) : ∃ pv', (expRe.run ⟨pv, s, g⟩).head? =
    some ⟨pv', (matchExp s).2, expGroup (matchExp s).1 g⟩ := by
  rw [expRe, head_opt, head_group]
  cases s with
  | nil => exact ⟨pv, by simp [Re.run, matchExp, expGroup]⟩
  | cons e t =>
    by_cases he : e = 'e' ∨ e = 'E'
    · have hb : (e == 'e' || e == 'E') = true := by simpa using he
      have key : ((Re.seq (Re.chr fun c => c == 'e' || c == 'E') (Re.seq (.opt (.lit '_')) digitsRe)).run ⟨pv, e :: t, g⟩).head? =
          ((Re.seq (.opt (.lit '_')) digitsRe).run ⟨some e, t, g⟩).head? := by
        rw [Re.run]
        simp only [Re.run.eq_2, hb, if_true, List.flatMap_cons, List.flatMap_nil, List.append_nil]
      rw [key, head_negDigits]
      match t with
      | [] =>
        refine ⟨pv, ?_⟩
        simp [digitsRe, head_plus, matchExp, expGroup]
      | ['_'] =>
        refine ⟨pv, ?_⟩
        simp [digitsRe, head_plus, matchExp, expGroup]
      | '_' :: d :: cs =>
        simp only [digitsRe, head_plus, matchExp, he, true_and]
        by_cases h : d.isDigit = true
        · simp only [List.takeWhile_cons, h, if_true, List.dropWhile_cons, reduceCtorEq, if_false, Option.map_some, Option.getD_some]
          have := take_used (e :: '_' :: d :: cs.takeWhile Char.isDigit) (cs.dropWhile Char.isDigit)
          simp only [List.cons_append, List.takeWhile_append_dropWhile] at this
          rw [this]
          exact ⟨_, rfl⟩
        · simp [h, expGroup]
      | d :: cs =>
        by_cases hd : d = '_'
        · subst hd
          cases cs with
          | nil =>
            refine ⟨pv, ?_⟩
            simp [digitsRe, head_plus, matchExp, expGroup]
          | cons d cs =>
            simp only [digitsRe, head_plus, matchExp, he, true_and]
            by_cases h : d.isDigit = true
            · simp only [List.takeWhile_cons, h, if_true, List.dropWhile_cons, reduceCtorEq, if_false, Option.map_some, Option.getD_some]
              have := take_used (e :: '_' :: d :: cs.takeWhile Char.isDigit) (cs.dropWhile Char.isDigit)
              simp only [List.cons_append, List.takeWhile_append_dropWhile] at this
              rw [this]
              exact ⟨_, rfl⟩
            · simp [h, expGroup]
        · have h1 : matchExp (e :: d :: cs) = if (e = 'e' ∨ e = 'E') ∧ d.isDigit then
              (some (e, false, (d :: cs).takeWhile Char.isDigit), (d :: cs).dropWhile Char.isDigit) else (none, e :: d :: cs) := by
            rw [matchExp.eq_def]
            split
            · rename_i h; cases h; exact absurd rfl hd
            · rename_i h; cases h; rfl
            · rename_i h; exact absurd rfl (h _ _ _)
          rw [h1]
          simp only [he, true_and]
          have h2 : (match d :: cs with
              | '_' :: t => (digitsRe.run ⟨some '_', t, g⟩).head?
              | s => (digitsRe.run ⟨some e, s, g⟩).head?) = (digitsRe.run ⟨some e, d :: cs, g⟩).head? := by
            split
            · rename_i h; cases h; exact absurd rfl hd
            · rfl
          rw [h2, digitsRe, head_plus]
          by_cases h : d.isDigit = true
          · simp only [List.takeWhile_cons, h, if_true, List.dropWhile_cons, reduceCtorEq, if_false, Option.map_some, Option.getD_some]
            have := take_used (e :: d :: cs.takeWhile Char.isDigit) (cs.dropWhile Char.isDigit)
            simp only [List.cons_append, List.takeWhile_append_dropWhile] at this
            rw [this]
            exact ⟨_, rfl⟩
          · simp [h, expGroup]
    · have hb : (e == 'e' || e == 'E') = false := by simpa using he
      refine ⟨pv, ?_⟩
      have h1 : matchExp (e :: t) = (none, e :: t) := by
        rw [matchExp.eq_def]
        split
        · rename_i h; cases h; rw [if_neg (fun h => he h.1)]
        · rename_i h; cases h; rw [if_neg (fun h => he h.1)]
        · rfl
      rw [h1]
      simp [Re.run, hb, expGroup]

/-- the groups of a match -/
def groupsOf (m : Match) (g : List (Nat × List Char)) : List (Nat × List Char) :=
  let g2 := (2, m.digits) :: g
  let g3 := match m.frac with | some f => (3, '_' :: f) :: g2 | none => g2
  let g4 := expGroup m.exp g3
  if m.space then (5, ['_']) :: g4 else g4

/-- groups 2 to 5 -/
theorem head_number (minus : Bool) (pv : Option Char) (s : List Char) (g : List (Nat × List Char)) :
    match matchNumber minus s with
    | none => ((Re.seq (.group 2 digitsRe) (.seq fracRe (.seq expRe spaceRe))).run ⟨pv, s, g⟩).head? = none
    | some m => m.minus = minus ∧ ∃ pv', ((Re.seq (.group 2 digitsRe) (.seq fracRe (.seq expRe spaceRe))).run ⟨pv, s, g⟩).head? = some ⟨pv', m.rest, groupsOf m g⟩ := by
  have t5 : Total spaceRe := total_opt _
  have t4 : Total (.seq expRe spaceRe) := total_seq (total_opt _) t5
  have t3 : Total (.seq fracRe (.seq expRe spaceRe)) := total_seq (total_opt _) t4
  rw [head_seq t3, head_group, digitsRe, head_plus]
  unfold matchNumber
  by_cases h : s.takeWhile Char.isDigit = []
  · simp [h]
  · simp only [h, if_false, Option.map_some, Option.bind_some, take_takeWhile, true_and]
    rw [head_seq t4]
    obtain ⟨p3, h3⟩ := head_frac (last pv (s.takeWhile Char.isDigit)) (s.dropWhile Char.isDigit) ((2, s.takeWhile Char.isDigit) :: g)
    rw [h3, Option.bind_some, head_seq t5]
    obtain ⟨p4, h4⟩ := head_exp p3 (matchFrac (s.dropWhile Char.isDigit)).2
      (match (matchFrac (s.dropWhile Char.isDigit)).1 with | some f => (3, '_' :: f) :: (2, s.takeWhile Char.isDigit) :: g | none => (2, s.takeWhile Char.isDigit) :: g)
    rw [h4, Option.bind_some]
    obtain ⟨p5, h5⟩ := head_space p4 (matchExp (matchFrac (s.dropWhile Char.isDigit)).2).2 (expGroup (matchExp (matchFrac (s.dropWhile Char.isDigit)).2).1
      (match (matchFrac (s.dropWhile Char.isDigit)).1 with | some f => (3, '_' :: f) :: (2, s.takeWhile Char.isDigit) :: g | none => (2, s.takeWhile Char.isDigit) :: g))
    rw [h5]
    exact ⟨p5, rfl⟩

/-- a match of the expression and a match of the model are the same -/
def Same : Option At → Option Match → Prop
  | none, none => True
  | some d, some m => d.rest = m.rest ∧ d.groups = groupsOf m (if m.minus then [(1, ['_'])] else [])
  | _, _ => False

theorem same_here (pv : Option Char) (s : List Char) : Same (numberRe.here pv s) (if wordy pv then none else matchHere s) := by
  unfold Re.here numberRe
  cases s with
  | nil => cases hp : wordy pv <;> simp [Re.run, boundary, hp, show wordy none = false from rfl, Re.lit, matchHere, Same]
  | cons x t =>
    by_cases hx : x = '_'
    · subst hx
      have hw : boundary pv (some '_') = !wordy pv := by
        have : wordy (some '_') = true := rfl
        simp only [boundary, this]
        cases wordy pv <;> rfl
      cases hp : wordy pv with
      | true =>
        simp only [Re.run.eq_3, Re.run.eq_6, List.head?_cons, hw, hp]
        simp [Same]
      | false =>
        have e1 : ∀ r : Re, ((Re.seq .bound (.seq (.lit '_') r)).run ⟨pv, '_' :: t, []⟩) = r.run ⟨some '_', t, []⟩ := by
          intro r
          simp [Re.run, hw, hp, Re.lit]
        rw [e1]
        simp only [if_false, Bool.false_eq_true]
        cases t with
        | nil =>
          have := head_number false (some '_') [] []
          simp [Re.run, Re.opt, Re.lit, digitsRe, Re.plus, matchHere, matchNumber, Same]
        | cons y u =>
          by_cases hy : y = '_'
          · subst hy
            have e2 : ∀ r : Re, (Re.seq (.opt (.group 1 (.lit '_'))) r).run ⟨some '_', '_' :: u, []⟩ = r.run ⟨some '_', u, [(1, ['_'])]⟩ ++ r.run ⟨some '_', '_' :: u, []⟩ := by
              intro r
              simp [Re.run, Re.opt, Re.lit]
            rw [e2]
            have n1 := head_number true (some '_') u [(1, ['_'])]
            have n2 := head_number false (some '_') ('_' :: u) []
            have n3 : matchNumber false ('_' :: u) = none := by simp [matchNumber]
            rw [n3] at n2
            simp only at n2
            rw [List.head?_append, n2, Option.or_none]
            simp only [matchHere]
            cases hm : matchNumber true u with
            | none => rw [hm] at n1; simp only at n1; rw [n1]; trivial
            | some m =>
              rw [hm] at n1
              obtain ⟨h1, p, h2⟩ := n1
              rw [h2]
              simp [Same, h1]
          · have e2 : ∀ r : Re, (Re.seq (.opt (.group 1 (.lit '_'))) r).run ⟨some '_', y :: u, []⟩ = r.run ⟨some '_', y :: u, []⟩ := by
              intro r
              simp [Re.run, Re.opt, Re.lit, hy]
            rw [e2]
            have n1 := head_number false (some '_') (y :: u) []
            have hm' : matchHere ('_' :: y :: u) = matchNumber false (y :: u) := by
              rw [matchHere.eq_def]
              split
              · rename_i h; cases h; exact absurd rfl hy
              · rename_i h; cases h; rfl
              · rename_i h; exact absurd rfl (h _)
            rw [hm']
            cases hm : matchNumber false (y :: u) with
            | none => rw [hm] at n1; simp only at n1; rw [n1]; trivial
            | some m =>
              rw [hm] at n1
              obtain ⟨h1, p, h2⟩ := n1
              rw [h2]
              simp [Same, h1]
    · have h1 : matchHere (x :: t) = none := by
        rw [matchHere.eq_def]
        split
        · rename_i h; cases h; exact absurd rfl hx
        · rename_i h; cases h; exact absurd rfl hx
        · rfl
      rw [h1]
      have : ((Re.seq Re.bound ((Re.lit '_').seq (((Re.group 1 (Re.lit '_')).opt).seq ((Re.group 2 digitsRe).seq (fracRe.seq (expRe.seq spaceRe)))))).run
          ⟨pv, x :: t, []⟩).head? = none := by
        rw [Re.run]
        simp only [Re.run.eq_6]
        split
        · simp [Re.run, Re.lit, hx]
        · simp
      rw [this]
      split <;> trivial

theorem same_search (pv : Option Char) (s : List Char) : match numberRe.search pv s, search (wordy pv) s with
    | none, none => True
    | some (t, d), some (t', m) => t = t' ∧ Same (some d) (some m) ∧ ∃ u, matchHere u = some m
    | _, _ => False := by
  induction s generalizing pv with
  | nil =>
    have := same_here pv []
    unfold Re.search search
    cases hp : wordy pv with
    | true =>
      rw [hp] at this
      cases hh : numberRe.here pv [] with
      | none => trivial
      | some d => rw [hh] at this; exact this.elim
    | false =>
      rw [hp] at this
      cases hh : numberRe.here pv [] with
      | none => trivial
      | some d => rw [hh] at this; exact this.elim
  | cons x xs ih =>
    have := same_here pv (x :: xs)
    have ih' := ih (some x)
    have hw : wordy (some x) = isWord x := rfl
    rw [hw] at ih'
    unfold Re.search search
    cases hm : (if wordy pv then none else matchHere (x :: xs)) with
    | none =>
      rw [hm] at this
      cases hh : numberRe.here pv (x :: xs) with
      | none => exact ih'
      | some d => rw [hh] at this; exact this.elim
    | some m =>
      rw [hm] at this
      cases hh : numberRe.here pv (x :: xs) with
      | none => rw [hh] at this; exact this.elim
      | some d =>
        rw [hh] at this
        refine ⟨by rw [this.1], this, x :: xs, ?_⟩
        split at hm
        · cases hm
        · exact hm

theorem replaceAll_one (x y : Char) (s : List Char) : replaceAll [x] [y] s = s.map fun c => if c = x then y else c := by
  induction s with
  | nil => rw [replaceAll]; rfl
  | cons c cs ih =>
    rw [replaceAll]
    by_cases h : c = x
    · subst h
      simp [ih]
    · have h' : ¬x = c := fun e => h e.symm
      simp [ih, h, h']

theorem map_digits {ds : List Char} (h : ds.all Char.isDigit = true) (y : Char) : ds.map (fun c => if c = '_' then y else c) = ds := by
  induction ds with
  | nil => rfl
  | cons c cs ih =>
    simp only [List.all_cons, Bool.and_eq_true] at h
    have : c ≠ '_' := by rintro rfl; exact absurd h.1 (by decide)
    simp [this, ih h.2]

theorem digits_frac {s f : List Char} (h : (matchFrac s).1 = some f) : f.all Char.isDigit = true := by
  unfold matchFrac at h
  split at h
  · split at h
    · simp only [Option.some.injEq] at h
      rw [← h]
      exact all_takeWhile _ _
    · cases h
  · cases h

theorem digits_exp {s ds : List Char} {e : Char} {neg : Bool} (h : (matchExp s).1 = some (e, neg, ds)) : ds.all Char.isDigit = true ∧ e ≠ '_' := by
  have he : ∀ e : Char, e = 'e' ∨ e = 'E' → e ≠ '_' := by rintro e (rfl | rfl) <;> decide
  unfold matchExp at h
  split at h
  · split at h
    · rename_i hc
      simp only [Option.some.injEq, Prod.mk.injEq] at h
      obtain ⟨rfl, rfl, rfl⟩ := h
      exact ⟨all_takeWhile _ _, he _ hc.1⟩
    · cases h
  · split at h
    · rename_i hc
      simp only [Option.some.injEq, Prod.mk.injEq] at h
      obtain ⟨rfl, rfl, rfl⟩ := h
      exact ⟨all_takeWhile _ _, he _ hc.1⟩
    · cases h
  · cases h

/-- the digits of a match are digits -/
theorem digits_match {s : List Char} {m : Match} (h : matchHere s = some m) :
    (∀ f, m.frac = some f → f.all Char.isDigit = true) ∧ ∀ e neg ds, m.exp = some (e, neg, ds) → ds.all Char.isDigit = true ∧ e ≠ '_' := by
  suffices hn : ∀ b t, matchNumber b t = some m → (∀ f, m.frac = some f → f.all Char.isDigit = true) ∧
      ∀ e neg ds, m.exp = some (e, neg, ds) → ds.all Char.isDigit = true ∧ e ≠ '_' by
    unfold matchHere at h
    split at h
    · exact hn _ _ h
    · exact hn _ _ h
    · cases h
  intro b t hm
  unfold matchNumber at hm
  simp only at hm
  split at hm
  · cases hm
  · cases hm
    exact ⟨fun f hf => digits_frac hf, fun e neg ds he => digits_exp he⟩

theorem same_replacement {s : List Char} {d : At} {m : Match} (hm : matchHere s = some m) (h : Same (some d) (some m)) : replacementRe d = replacement m := by
  obtain ⟨-, hg⟩ := h
  obtain ⟨hf, he⟩ := digits_match hm
  obtain ⟨minus, digits, frac, exp, space, rest⟩ := m
  simp only at hf he
  simp only [replacementRe, replacement, groupText, At.get, hg, groupsOf, expGroup, replaceAll_one]
  rcases frac with _ | f
  · rcases exp with _ | ⟨e, neg, ds⟩
    · cases minus <;> cases space <;> simp
    · obtain ⟨h1, h2⟩ := he e neg ds rfl
      cases minus <;> cases space <;> cases neg <;> simp [h2, map_digits h1]
  · have h3 := hf f rfl
    rcases exp with _ | ⟨e, neg, ds⟩
    · cases minus <;> cases space <;> simp [map_digits h3]
    · obtain ⟨h1, h2⟩ := he e neg ds rfl
      cases minus <;> cases space <;> cases neg <;> simp [h2, map_digits h1, map_digits h3]

theorem unmangleReFuel_eq (n : Nat) (s : List Char) : unmangleReFuel n s = unmangleFuel n s := by
  induction n generalizing s with
  | zero =>
    have := same_search none s
    rw [show wordy none = false from rfl] at this
    unfold unmangleReFuel unmangleFuel
    cases h1 : numberRe.search none s with
    | none =>
      rw [h1] at this
      cases h2 : search false s with
      | none => rfl
      | some q => rw [h2] at this; exact this.elim
    | some p =>
      rw [h1] at this
      cases h2 : search false s with
      | none => rw [h2] at this; exact this.elim
      | some q => rfl
  | succ n ih =>
    have := same_search none s
    rw [show wordy none = false from rfl] at this
    unfold unmangleReFuel unmangleFuel
    cases h1 : numberRe.search none s with
    | none =>
      rw [h1] at this
      cases h2 : search false s with
      | none => rfl
      | some q => rw [h2] at this; exact this.elim
    | some p =>
      rw [h1] at this
      cases h2 : search false s with
      | none => rw [h2] at this; exact this.elim
      | some q =>
        rw [h2] at this
        obtain ⟨t, d⟩ := p
        obtain ⟨t', m⟩ := q
        obtain ⟨rfl, hs, u, hu⟩ := this
        simp only
        rw [same_replacement hu hs, ih]

/-- C16. The model of `_unmangle_scaling` that the other theorems are about does what the code does with its regular expression, on every text. -/
theorem C16_expression (s : List Char) : unmangleRe s = unmangle s := unmangleReFuel_eq _ s

/-- the expression finds `__8e_05_` in the mangled form of `kg * -8e-05 m` and gives back the number -/
example : (numberRe.search none "kg * __8e_05_meter".toList).map (fun p => (p.1, replacementRe p.2)) = some ("__8e_05_".toList, "-8e-05 ".toList) := by decide +kernel

/-! ## `_scaling_store_and_mangle` -/

theorem here_plus (p : Char → Bool) (pv : Option Char) (s : List Char) :
    (Re.plus (.chr p)).here pv s = if s.takeWhile p = [] then none else some ⟨last pv (s.takeWhile p), s.dropWhile p, []⟩ := head_plus p pv s []

theorem filter_dropWhile (p : Char → Bool) (s : List Char) : (s.dropWhile p).filter (fun c => !p c) = s.filter fun c => !p c := by
  induction s with
  | nil => rfl
  | cons x xs ih =>
    by_cases h : p x = true
    · simp [h, ih]
    · simp [h]

theorem sub_plus (p : Char → Bool) (n : Nat) (pv : Option Char) (s : List Char) (hn : s.length ≤ n) :
    (Re.plus (.chr p)).subN (fun _ => []) n pv s = s.filter fun c => !p c := by
  induction n generalizing pv s with
  | zero =>
    have : s = [] := List.length_eq_zero_iff.1 (by omega)
    subst this
    rfl
  | succ n ih =>
    cases s with
    | nil => rfl
    | cons x xs =>
      simp only [Re.subN, here_plus]
      by_cases h : p x = true
      · simp only [List.takeWhile_cons, h, if_true, reduceCtorEq, if_false, List.nil_append, List.dropWhile_cons]
        have h1 := (List.dropWhile_suffix p (l := xs)).length_le
        simp only [List.length_cons] at hn
        rw [ih _ _ (by omega), filter_dropWhile]
        simp [h]
      · simp only [List.takeWhile_cons, h, if_false, Bool.false_eq_true, if_true]
        rw [ih _ _ (by simpa using hn)]
        simp [h]

/-- is the character before a digit? -/
def digitBefore : Option Char → Bool
  | some c => c.isDigit
  | none => false

/-- is the next character a digit? -/
def digitNext : List Char → Bool
  | d :: _ => d.isDigit
  | [] => false

theorem here_separator (pv : Option Char) (x : Char) (xs : List Char) :
    separatorRe.here pv (x :: xs) = if x = '_' ∧ digitBefore pv = true ∧ digitNext xs = true then some ⟨some '_', xs, []⟩ else none := by
  unfold Re.here separatorRe
  rw [Re.run]
  have hb : pv.any Char.isDigit = digitBefore pv := by cases pv <;> rfl
  simp only [run_look, hb]
  cases digitBefore pv with
  | false => simp
  | true =>
    by_cases hx : x = '_'
    · subst hx
      cases xs with
      | nil => simp [Re.run, Re.lit, digitNext]
      | cons y ys => by_cases hy : y.isDigit = true <;> simp [Re.run, Re.lit, hy, digitNext]
    · simp [Re.run, Re.lit, hx]

theorem dropSeparators_cons (b : Bool) (x : Char) (xs : List Char) :
    dropSeparators b (x :: xs) = if x = '_' ∧ b = true ∧ digitNext xs = true then dropSeparators false xs else x :: dropSeparators x.isDigit xs := by
  rw [dropSeparators.eq_def]
  cases xs with
  | nil => simp [digitNext]
  | cons y ys => by_cases h : x = '_' ∧ b = true ∧ y.isDigit = true <;> simp [and_assoc, digitNext, h]

theorem sub_separator (n : Nat) (pv : Option Char) (s : List Char) (hn : s.length ≤ n) :
    separatorRe.subN (fun _ => []) n pv s = dropSeparators (digitBefore pv) s := by
  induction n generalizing pv s with
  | zero =>
    have : s = [] := List.length_eq_zero_iff.1 (by omega)
    subst this
    rfl
  | succ n ih =>
    cases s with
    | nil => rfl
    | cons x xs =>
      simp only [List.length_cons, Nat.add_le_add_iff_right] at hn
      simp only [Re.subN, dropSeparators_cons, here_separator]
      by_cases h : x = '_' ∧ digitBefore pv = true ∧ digitNext xs = true
      · simp only [if_pos h]
        exact ih _ _ hn
      · simp only [if_neg h]
        rw [ih _ _ hn]
        rfl

theorem insert_dot (pv : Option Char) (s : List Char) : dotRe.insert ['0'] pv s = zeroDots pv s := by
  induction s generalizing pv with
  | nil => rfl
  | cons x xs ih =>
    have hh : dotRe.here pv (x :: xs) = if (x = '.' && pv ≠ some '0') = true then some ⟨pv, x :: xs, []⟩ else none := by
      unfold Re.here dotRe
      by_cases hp : pv = some '0'
      · simp [Re.run, hp]
      · by_cases hx : x = '.' <;> simp [Re.run, hp, hx]
    simp only [Re.insert, zeroDots, hh]
    by_cases h : (x = '.' && pv ≠ some '0') = true
    · simp only [if_pos h]
      rw [ih]; rfl
    · simp only [if_neg h]
      rw [ih]

theorem sub_dashDot (n : Nat) (pv : Option Char) (s : List Char) (hn : s.length ≤ n) : dashDotRe.subN (fun _ => ['_']) n pv s = underscore s := by
  induction n generalizing pv s with
  | zero =>
    have : s = [] := List.length_eq_zero_iff.1 (by omega)
    subst this
    rfl
  | succ n ih =>
    cases s with
    | nil => rfl
    | cons x xs =>
      simp only [List.length_cons, Nat.add_le_add_iff_right] at hn
      have hh : dashDotRe.here pv (x :: xs) = if x = '-' ∨ x = '.' then some ⟨some x, xs, []⟩ else none := by
        unfold Re.here dashDotRe
        by_cases hx : x = '-' ∨ x = '.' <;> simp [Re.run, hx]
      simp only [Re.subN, underscore, hh, List.map_cons]
      split
      · rename_i d h
        split at h
        · cases h
          rename_i hx
          rw [ih _ _ hn, if_pos hx]
          rfl
        · cases h
      · rename_i h
        split at h
        · cases h
        · rename_i hx
          rw [ih _ _ hn, if_neg hx]
          rfl

/-- C16. The names of the model are the names that the code makes with its regular expressions, whatever the term and the unit. -/
theorem C16_expression_mangle (term : List Char) (unit : Option (List Char × List Char)) : mangleRe term unit = mangle term unit := by
  have h1 : ∀ s, plusSpaceRe.sub (fun _ => []) s = dropPlusSpace s := fun s => sub_plus _ _ _ s (Nat.le_refl _)
  have h2 : ∀ s, stripTermRe s = stripTerm s := by
    intro s
    simp only [stripTermRe, stripTerm, h1]
    exact sub_separator _ _ _ (Nat.le_refl _)
  have h3 : ∀ s, stripUnitRe s = stripUnit s := by
    intro s
    simp only [stripUnitRe, stripUnit, h1, insert_dot]
  have h4 : ∀ s, dashDotRe.sub (fun _ => ['_']) s = underscore s := fun s => sub_dashDot _ _ _ (Nat.le_refl _)
  unfold mangleRe mangle
  simp only [h2, h3, h4]
  rcases unit with _ | ⟨u, l⟩ <;> rfl

example : mangleRe "+ 1_000.5 cm".toList (some ("cm".toList, "centimeter".toList)) = "_1000_5_centimeter".toList := by decide +kernel

theorem head_text (t : List Char) (pv : Option Char) (s : List Char) (g : List (Nat × List Char)) :
    (Re.text t).run ⟨pv, s, g⟩ = if t.isPrefixOf s then [⟨last pv t, s.drop t.length, g⟩] else [] := by
  induction t generalizing pv s with
  | nil => simp [Re.text, Re.run, last]
  | cons x t ih =>
    cases s with
    | nil => simp [Re.text, Re.run, Re.lit]
    | cons y s =>
      by_cases h : y = x
      · subst h
        simp [Re.text, Re.run, Re.lit, ih, last]
      · have h' : ¬x = y := fun e => h e.symm
        simp [Re.text, Re.run, Re.lit, h, h']

theorem here_term (t : List Char) (pv : Option Char) (s : List Char) :
    (termRe t).here pv s = if termHere t pv s then some ⟨last pv t, s.drop t.length, []⟩ else none := by
  unfold Re.here termRe termHere
  have hb : (pv.all fun c => !(c == '-' || c == '+' || c.isDigit || c == '.')) = behindOk pv := by cases pv <;> rfl
  have ha : ((s.drop t.length).head?.all fun c => !(c.isDigit || c == '.')) = aheadOk (s.drop t.length) := by
    cases s.drop t.length <;> rfl
  rw [Re.run]
  simp only [run_look, hb]
  cases behindOk pv with
  | false => simp
  | true =>
    simp only [if_true, List.flatMap_cons, List.flatMap_nil, List.append_nil, Bool.true_and]
    rw [Re.run, head_text]
    cases t.isPrefixOf s with
    | false => simp
    | true =>
      simp only [if_true, List.flatMap_cons, List.flatMap_nil, List.append_nil, Bool.true_and, run_look, ha]
      cases aheadOk (s.drop t.length) <;> simp

theorem subTerm_skipped (t v : List Char) (k : Nat) (pv : Option Char) (s : List Char) (hk : k ≤ s.length) :
    subTerm t v pv k s = subTerm t v (last pv (s.take k)) 0 (s.drop k) := by
  induction k generalizing pv s with
  | zero => simp [last]
  | succ k ih =>
    cases s with
    | nil => simp at hk
    | cons x xs =>
      simp only [List.length_cons, Nat.add_le_add_iff_right] at hk
      simp only [subTerm, List.take_succ_cons, List.drop_succ_cons, last]
      exact ih _ _ hk

theorem sub_term (t v : List Char) (ht : t ≠ []) (n : Nat) (pv : Option Char) (s : List Char) (hn : s.length ≤ n) :
    (termRe t).subN (fun _ => v) n pv s = subTerm t v pv 0 s := by
  induction n generalizing pv s with
  | zero =>
    have : s = [] := List.length_eq_zero_iff.1 (by omega)
    subst this
    rfl
  | succ n ih =>
    cases s with
    | nil => rfl
    | cons x xs =>
      simp only [List.length_cons, Nat.add_le_add_iff_right] at hn
      simp only [Re.subN, here_term, subTerm]
      by_cases h : termHere t pv (x :: xs) = true
      · simp only [h, if_true]
        cases t with
        | nil => exact absurd rfl ht
        | cons y t =>
          have hp : (y :: t).isPrefixOf (x :: xs) = true := by
            simp only [termHere, Bool.and_eq_true] at h
            exact h.1.2
          simp only [List.isPrefixOf_cons_cons, Bool.and_eq_true, beq_iff_eq] at hp
          obtain ⟨rfl, hp⟩ := hp
          obtain ⟨u, rfl⟩ := List.isPrefixOf_iff_prefix.1 hp
          simp only [List.length_cons, List.drop_succ_cons, last, Nat.add_sub_cancel]
          rw [ih _ _ (by simp at hn ⊢; omega), subTerm_skipped (y :: t) v t.length (some y) (t ++ u) (by simp)]
          simp
      · simp only [h, if_false, Bool.false_eq_true]
        rw [ih _ _ hn]

/-- C65. The replacement of the model is what the code does with its regular expression, for every term and every text. -/
theorem C65_expression (term valid input : List Char) (h : term ≠ []) : (termRe term).sub (fun _ => valid) input = subTerm term valid none 0 input :=
  sub_term term valid h _ _ _ (Nat.le_refl _)

example : (termRe "5 m".toList).sub (fun _ => "_5_meter".toList) "kg/5 m/15 m".toList = "kg/_5_meter/15 m".toList := by decide +kernel

end Verif.Mangle

namespace Verif.Strings
open Verif.Regex

theorem here_element (pv : Option Char) (s : List Char) : match s with
    | [] => elementRe.here pv s = none
    | c :: cs => ∃ pv', elementRe.here pv s = if isUpperAscii c then some ⟨pv', cs.dropWhile isLowerAscii, []⟩ else none := by
  unfold Re.here elementRe
  rw [head_seq (total_star _)]
  cases s with
  | nil => simp [Re.run]
  | cons c cs =>
    simp only
    by_cases h : isUpperAscii c = true
    · refine ⟨last (some c) (cs.takeWhile isLowerAscii), ?_⟩
      rw [run_chr (show ('A' ≤ c && c ≤ 'Z') = true from h), List.head?_cons, Option.bind_some, head_star, if_pos h]
      rfl
    · have h' : ('A' ≤ c && c ≤ 'Z') = false := by
        have : isUpperAscii c = false := by simpa using h
        exact this
      refine ⟨none, ?_⟩
      simp only [h, if_false, Bool.false_eq_true]
      simp only [Re.run, h', if_false, Bool.false_eq_true]
      rfl

theorem find_element (n : Nat) (pv : Option Char) (s : List Char) (hn : s.length ≤ n) : elementRe.findN n pv s = elements s := by
  induction n generalizing pv s with
  | zero =>
    have : s = [] := List.length_eq_zero_iff.1 (by omega)
    subst this
    rw [elements]
    rfl
  | succ n ih =>
    cases s with
    | nil => rw [elements]; rfl
    | cons c cs =>
      simp only [List.length_cons, Nat.add_le_add_iff_right] at hn
      obtain ⟨pv', hh⟩ := here_element pv (c :: cs)
      rw [Re.findN, hh, elements]
      by_cases h : isUpperAscii c = true
      · simp only [h, if_true]
        have h1 := (List.dropWhile_suffix isLowerAscii (l := cs)).length_le
        rw [ih _ _ (by omega)]
        have := take_used (c :: cs.takeWhile isLowerAscii) (cs.dropWhile isLowerAscii)
        simp only [List.cons_append, List.takeWhile_append_dropWhile] at this
        rw [this]
      · simp only [h, if_false, Bool.false_eq_true]
        exact ih _ _ hn

/-- C19. The elements of the model are what `re.findall('[A-Z][a-z]*', formula)` finds, in every text. -/
theorem C19_expression (s : List Char) : elementRe.findall s = elements s := find_element _ _ _ (Nat.le_refl _)

example : elementRe.findall "(CaCO3)2NaCl".toList = ["Ca".toList, "C".toList, "O".toList, "Na".toList, "Cl".toList] := by decide +kernel

end Verif.Strings
