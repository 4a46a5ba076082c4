import Verif.Model.SetAlias
/-!
# C63: bounds that were given the same set
-/

set_option linter.unusedSimpArgs false
set_option linter.unusedVariables false
set_option linter.unusedSectionVars false

namespace Verif.SetAlias
open Verif.Py Verif.Bounds

variable {S : Type} [DecidableEq S]

/-! ## The specification -/

/-- the set object of every bounds object exists -/
def WF (s : Objs S) : Prop := ∀ b i : Nat, s.bounds[b]? = some i → i < s.sets.length

/-- is it a call into the library? -/
def Op.library : Op S → Prop
  | .newSet _ => False
  | .mutate _ _ => False
  | _ => True

/-- the bounds object whose setter or `update` is called -/
def Op.target : Op S → Option Nat
  | .assign b _ => some b
  | .update b _ => some b
  | _ => none

/-- no set object that there was has been changed -/
def Kept (s s' : Objs S) : Prop := ∀ i, i < s.sets.length → s'.sets[i]? = s.sets[i]?

/-! ## Lemmas -/

theorem choose_spec (s : Objs S) (a : CatArg S) (hv : ∀ i, a = .set i → i < s.sets.length) : Kept s (choose s a).1 ∧ (choose s a).1.bounds = s.bounds ∧
    s.sets.length ≤ (choose s a).1.sets.length ∧ ∀ i, (choose s a).2 = .ok i → i < (choose s a).1.sets.length := by
  cases a with
  | none => exact ⟨fun i h => by simp [choose, List.getElem?_append_left h], rfl, by simp [choose], fun i h => by simp [choose] at h ⊢; omega⟩
  | list l => exact ⟨fun i h => by simp [choose, List.getElem?_append_left h], rfl, by simp [choose], fun i h => by simp [choose] at h ⊢; omega⟩
  | set j => exact ⟨fun i h => rfl, rfl, Nat.le_refl _, fun i h => by simp only [choose, Except.ok.injEq] at h ⊢; exact h ▸ hv j rfl⟩
  | other => exact ⟨fun i h => rfl, rfl, Nat.le_refl _, fun i h => by simp [choose] at h⟩

/-- what a constructor call does -/
theorem construct_spec (s : Objs S) (a : CatArg S) (hv : ∀ i, a = .set i → i < s.sets.length) : Kept s (construct s a).1 ∧ s.sets.length ≤ (construct s a).1.sets.length ∧
    ((∃ e, (construct s a).2 = .error e ∧ (construct s a).1.bounds = s.bounds) ∨
      ∃ i, (choose s a).2 = .ok i ∧ (construct s a).2 = .ok s.bounds.length ∧ (construct s a).1.bounds = s.bounds ++ [i] ∧ i < (construct s a).1.sets.length ∧
        allStr (construct s a).1 i = true) := by
  have h := choose_spec s a hv
  unfold construct
  cases hc : choose s a with
  | mk s1 r =>
    rw [hc] at h
    simp only at h
    cases r with
    | error e => exact ⟨h.1, h.2.2.1, .inl ⟨e, rfl, h.2.1⟩⟩
    | ok i =>
      simp only
      split
      · rename_i hs
        exact ⟨h.1, h.2.2.1, .inr ⟨i, rfl, by rw [h.2.1], by rw [h.2.1], h.2.2.2 i rfl, hs⟩⟩
      · exact ⟨h.1, h.2.2.1, .inl ⟨_, rfl, h.2.1⟩⟩

theorem assign_spec (s : Objs S) (b : Nat) (a : CatArg S) (hv : ∀ i, a = .set i → i < s.sets.length) : Kept s (assign s b a).1 ∧ s.sets.length ≤ (assign s b a).1.sets.length ∧
    ((∃ e, (assign s b a).2 = .error e ∧ (assign s b a).1.bounds = s.bounds) ∨
      ∃ i, (choose s a).2 = .ok i ∧ (assign s b a).1.bounds = s.bounds.set b i ∧ i < (assign s b a).1.sets.length ∧
        ((assign s b a).2 = .ok () → allStr (assign s b a).1 i = true)) := by
  have h := choose_spec s a hv
  unfold assign
  cases hc : choose s a with
  | mk s1 r =>
    rw [hc] at h
    simp only at h
    cases r with
    | error e => exact ⟨h.1, h.2.2.1, .inl ⟨e, rfl, h.2.1⟩⟩
    | ok i =>
      refine ⟨h.1, h.2.2.1, .inr ⟨i, rfl, by simp only [h.2.1], h.2.2.2 i rfl, fun e => ?_⟩⟩
      simp only at e
      split at e
      · assumption
      · cases e

/-- what `union` does: it makes one set and, if it succeeds, one bounds object that has it -/
theorem union_spec (s : Objs S) (b : Nat) (others : List (Other S)) : Kept s (union s b others).1 ∧ s.sets.length ≤ (union s b others).1.sets.length ∧
    ((∃ e, (union s b others).2 = .error e ∧ (union s b others).1.bounds = s.bounds) ∨
      ∃ r, others.any Other.bad = false ∧ gather s (categories s b) others = .ok r ∧ (union s b others).2 = .ok s.bounds.length ∧ (union s b others).1.sets = s.sets ++ [r] ∧
        (union s b others).1.bounds = s.bounds ++ [s.sets.length] ∧ r.all Elem.isStr = true) := by
  unfold union
  split
  · exact ⟨fun i h => rfl, Nat.le_refl _, .inl ⟨_, rfl, rfl⟩⟩
  · rename_i hb
    split
    · exact ⟨fun i h => rfl, Nat.le_refl _, .inl ⟨_, rfl, rfl⟩⟩
    · rename_i r hr
      have hk : Kept s { s with sets := s.sets ++ [r] } := fun i h => by simp [List.getElem?_append_left h]
      by_cases hs : r.all Elem.isStr = true
      · have hs' : allStr { s with sets := s.sets ++ [r] } s.sets.length = true := by simpa [allStr] using hs
        simp only [construct, choose, hs', if_true]
        exact ⟨hk, by simp, .inr ⟨r, by simpa using hb, hr, by simp, by simp, by simp, hs⟩⟩
      · have hs' : allStr { s with sets := s.sets ++ [r] } s.sets.length = false := by simpa [allStr] using hs
        simp only [construct, choose, hs', Bool.false_eq_true, if_false]
        exact ⟨hk, by simp, .inl ⟨_, rfl, by simp⟩⟩

/-- what `update` does -/
theorem update_spec (s : Objs S) (b : Nat) (others : List (Other S)) : Kept s (update s b others).1 ∧ s.sets.length ≤ (update s b others).1.sets.length ∧
    ((∃ e, (update s b others).2 = .error e ∧ (update s b others).1.bounds = s.bounds) ∨
      ∃ r, others.any Other.bad = false ∧ gather s (categories s b) others = .ok r ∧ (update s b others).2 = .ok () ∧ (update s b others).1.sets = s.sets ++ [r] ∧
        (update s b others).1.bounds = s.bounds.set b s.sets.length ∧ r.all Elem.isStr = true) := by
  have h := union_spec s b others
  unfold update
  cases hu : union s b others with
  | mk s1 o =>
    rw [hu] at h
    simp only at h
    obtain ⟨h1, h2, ⟨e, rfl, h3⟩ | ⟨r, hb, hr, rfl, h4, h5, h6⟩⟩ := h
    · exact ⟨h1, h2, .inl ⟨e, rfl, h3⟩⟩
    · obtain ⟨sets, bounds⟩ := s1
      simp only at h4 h5
      subst h4 h5
      have hs' : allStr { sets := s.sets ++ [r], bounds := s.bounds } s.sets.length = true := by simpa [allStr] using h6
      simp only [assign, choose, List.getElem?_concat_length, Option.getD_some, List.dropLast_concat, hs', if_true]
      exact ⟨h1, h2, .inr ⟨r, hb, hr, by simp, by simp, by simp, h6⟩⟩

theorem gather_mem (s : Objs S) (others : List (Other S)) (acc r : List (Elem S)) (h : gather s acc others = .ok r) (e : Elem S) :
    e ∈ r ↔ e ∈ acc ∨ (∃ c, .bounds c ∈ others ∧ e ∈ categories s c) ∨ ∃ l x, .value (.ok l) ∈ others ∧ x ∈ l ∧ e = .str x := by
  induction others generalizing acc with
  | nil => simp only [gather, Except.ok.injEq] at h; subst h; simp
  | cons o os ih =>
    cases o with
    | bounds c =>
      rw [ih _ h]
      simp only [List.mem_append, List.mem_cons, Other.bounds.injEq, reduceCtorEq, false_or]
      constructor
      · rintro ((h | h) | ⟨c', h, h'⟩ | h)
        · exact .inl h
        · exact .inr (.inl ⟨c, .inl rfl, h⟩)
        · exact .inr (.inl ⟨c', .inr h, h'⟩)
        · exact .inr (.inr h)
      · rintro (h | ⟨c', rfl | h, h'⟩ | h)
        · exact .inl (.inl h)
        · exact .inl (.inr h')
        · exact .inr (.inl ⟨c', h, h'⟩)
        · exact .inr (.inr h)
    | value v =>
      cases v with
      | error e => simp [gather] at h
      | ok l =>
        rw [ih _ h]
        simp only [List.mem_append, List.mem_cons, List.mem_map, Other.value.injEq, Except.ok.injEq, reduceCtorEq, false_or]
        constructor
        · rintro ((h | ⟨x, h, rfl⟩) | h | ⟨l', x, h, h'⟩)
          · exact .inl h
          · exact .inr (.inr ⟨l, x, .inl rfl, h, rfl⟩)
          · exact .inr (.inl h)
          · exact .inr (.inr ⟨l', x, .inr h, h'⟩)
        · rintro (h | h | ⟨l', x, rfl | h, h'⟩)
          · exact .inl (.inl h)
          · exact .inr (.inl h)
          · exact .inl (.inr ⟨x, h'.1, h'.2.symm⟩)
          · exact .inr (.inr ⟨l', x, h, h'⟩)
    | other => simp [gather] at h

theorem Kept.categories {s s' : Objs S} (hw : WF s) (h : Kept s s') {c : Nat} (hc : s'.bounds[c]? = s.bounds[c]?) : categories s' c = categories s c := by
  unfold SetAlias.categories
  rw [hc]
  cases hb : s.bounds[c]? with
  | none => rfl
  | some i => simp only [h i (hw c i hb)]

/-- what each operation does to bounds objects -/
theorem step_bounds (s : Objs S) (op : Op S) (hv : op.valid s) : (op.library → Kept s (step s op).1) ∧ s.sets.length ≤ (step s op).1.sets.length ∧
    ((step s op).1.bounds = s.bounds ∨ ∃ i, i < (step s op).1.sets.length ∧ ((step s op).2 = true → allStr (step s op).1 i = true) ∧
      (((step s op).1.bounds = s.bounds ++ [i] ∧ op.target = none) ∨ ∃ b, op.target = some b ∧ (step s op).1.bounds = s.bounds.set b i)) := by
  cases op with
  | construct a =>
    have h := construct_spec s a hv
    simp only [step]
    generalize construct s a = r at h
    obtain ⟨s', r⟩ := r
    obtain ⟨h1, h2, ⟨e, h3, h4⟩ | ⟨i, h3, h4, h5, h6, h7⟩⟩ := h
    · simp only at h3
      subst h3
      exact ⟨fun _ => h1, h2, .inl h4⟩
    · simp only at h4
      subst h4
      exact ⟨fun _ => h1, h2, .inr ⟨i, h6, fun _ => h7, .inl ⟨h5, rfl⟩⟩⟩
  | assign b a =>
    have h := assign_spec s b a hv.2
    simp only [step]
    generalize assign s b a = r at h
    obtain ⟨s', r⟩ := r
    obtain ⟨h1, h2, ⟨e, h3, h4⟩ | ⟨i, h3, h5, h6, h7⟩⟩ := h
    · simp only at h3
      subst h3
      exact ⟨fun _ => h1, h2, .inl h4⟩
    · cases r with
      | error e => exact ⟨fun _ => h1, h2, .inr ⟨i, h6, (fun h => nomatch h), .inr ⟨b, rfl, h5⟩⟩⟩
      | ok u => exact ⟨fun _ => h1, h2, .inr ⟨i, h6, fun _ => h7 rfl, .inr ⟨b, rfl, h5⟩⟩⟩
  | union b others =>
    have h := union_spec s b others
    simp only [step]
    generalize union s b others = r at h
    obtain ⟨s', r⟩ := r
    obtain ⟨h1, h2, ⟨e, h3, h4⟩ | ⟨l, _, _, h3, h4, h5, h6⟩⟩ := h
    · simp only at h3
      subst h3
      exact ⟨fun _ => h1, h2, .inl h4⟩
    · simp only at h3 h4
      subst h3
      exact ⟨fun _ => h1, h2, .inr ⟨s.sets.length, by simp [h4], fun _ => by simpa [allStr, h4] using h6, .inl ⟨h5, rfl⟩⟩⟩
  | update b others =>
    have h := update_spec s b others
    simp only [step]
    generalize update s b others = r at h
    obtain ⟨s', r⟩ := r
    obtain ⟨h1, h2, ⟨e, h3, h4⟩ | ⟨l, _, _, h3, h4, h5, h6⟩⟩ := h
    · simp only at h3
      subst h3
      exact ⟨fun _ => h1, h2, .inl h4⟩
    · simp only at h3 h4
      subst h3
      exact ⟨fun _ => h1, h2, .inr ⟨s.sets.length, by simp [h4], fun _ => by simpa [allStr, h4] using h6, .inr ⟨b, rfl, h5⟩⟩⟩
  | newSet l => exact ⟨fun h => h.elim, by simp [step], .inl rfl⟩
  | mutate i l => exact ⟨fun h => h.elim, by simp [step], .inl rfl⟩

/-! ## The theorems -/

/-- the set objects of bounds exist, whatever a program does -/
theorem reachable_wf {s : Objs S} (h : Reachable s) : WF s := by
  induction h with
  | start => intro b i h; simp at h
  | step op hs hv ih =>
    obtain ⟨_, h2, h3⟩ := step_bounds _ op hv
    intro b i h
    rcases h3 with h3 | ⟨j, hj, _, ⟨h3, _⟩ | ⟨b', _, h3⟩⟩
    · rw [h3] at h
      exact Nat.lt_of_lt_of_le (ih b i h) h2
    · rw [h3] at h
      have := List.mem_of_getElem? h
      rcases List.mem_append.1 this with hm | hm
      · obtain ⟨k, hk, e⟩ := List.mem_iff_getElem.1 hm
        exact Nat.lt_of_lt_of_le (ih k i (by rw [List.getElem?_eq_getElem hk, e])) h2
      · simp only [List.mem_singleton] at hm
        omega
    · rw [h3] at h
      rw [List.getElem?_set] at h
      split at h
      · split at h
        · cases h; exact hj
        · cases h
      · exact Nat.lt_of_lt_of_le (ih b i h) h2

/-- C63: no call into the library changes a set object that exists, not even one that is given to it. -/
theorem C63_sets_kept (s : Objs S) (op : Op S) (hv : op.valid s) (hl : op.library) : Kept s (step s op).1 := (step_bounds s op hv).1 hl

/-- C63: no call into the library changes the categories of any bounds object other than the one whose setter or `update` is called, whether or not they have been given
the same set, and whether or not the call succeeds. -/
theorem C63_others_kept {s : Objs S} (hr : Reachable s) (op : Op S) (hv : op.valid s) (hl : op.library) (c : Nat) (hc : c < s.bounds.length) (ht : op.target ≠ some c) :
    categories (step s op).1 c = categories s c := by
  obtain ⟨h1, _, h3⟩ := step_bounds s op hv
  refine (h1 hl).categories (reachable_wf hr) ?_
  rcases h3 with h3 | ⟨j, hj, _, ⟨h3, _⟩ | ⟨b', hb, h3⟩⟩
  · rw [h3]
  · rw [h3, List.getElem?_append_left hc]
  · rw [h3, List.getElem?_set, if_neg (fun e => ht (by rw [hb, e]))]

/-- C63: `update` adds exactly the categories of its arguments, or raises and changes nothing. -/
theorem C63_update {s : Objs S} (hr : Reachable s) (b : Nat) (others : List (Other S)) (hv : (Op.update b others).valid s) :
    ((update s b others).2 = .ok () ∧ ∀ e, e ∈ categories (update s b others).1 b ↔
      e ∈ categories s b ∨ (∃ c, .bounds c ∈ others ∧ e ∈ categories s c) ∨ ∃ l x, .value (.ok l) ∈ others ∧ x ∈ l ∧ e = .str x) ∨
    ((update s b others).2 ≠ .ok () ∧ ∀ c, categories (update s b others).1 c = categories s c) := by
  obtain ⟨h1, h2, ⟨e, h3, h4⟩ | ⟨r, hb, hg, h3, h4, h5, h6⟩⟩ := update_spec s b others
  · exact .inr ⟨by rw [h3]; simp, fun c => h1.categories (reachable_wf hr) (by rw [h4])⟩
  · refine .inl ⟨h3, fun e => ?_⟩
    rw [← gather_mem s others _ r hg e]
    have : categories (update s b others).1 b = r := by
      unfold SetAlias.categories
      rw [h5, List.getElem?_set, if_pos rfl, if_pos hv.1, h4]
      simp
    rw [this]

/-- C63: after an `update` the bounds object has a set of its own: changing any set object that existed before does not change it, and changing its set does not change
any other bounds. -/
theorem C63_update_apart {s : Objs S} (hr : Reachable s) (b : Nat) (others : List (Other S)) (hv : (Op.update b others).valid s) (hok : (update s b others).2 = .ok ())
    (l : List (Elem S)) :
    (∀ i, i < s.sets.length → categories (step (update s b others).1 (.mutate i l)).1 b = categories (update s b others).1 b) ∧
    ∀ i, (update s b others).1.bounds[b]? = some i → ∀ c, c ≠ b → c < s.bounds.length → categories (step (update s b others).1 (.mutate i l)).1 c = categories s c := by
  obtain ⟨h1, h2, ⟨e, h3, h4⟩ | ⟨r, hb, hg, h3, h4, h5, h6⟩⟩ := update_spec s b others
  · rw [h3] at hok; cases hok
  · have hbb : (update s b others).1.bounds[b]? = some s.sets.length := by rw [h5, List.getElem?_set, if_pos rfl, if_pos hv.1]
    constructor
    · intro i hi
      simp only [SetAlias.categories, step, hbb]
      rw [List.getElem?_set, if_neg (by omega)]
    · intro i hi c hc hlt
      rw [hbb] at hi
      cases hi
      have hcc : (update s b others).1.bounds[c]? = s.bounds[c]? := by rw [h5, List.getElem?_set, if_neg (Ne.symm hc)]
      simp only [SetAlias.categories, step, hcc]
      cases hx : s.bounds[c]? with
      | none => rfl
      | some j =>
        have := reachable_wf hr c j hx
        simp only
        rw [List.getElem?_set, if_neg (by omega), h1 j this]

/-- C63: the same of a bounds object made from a list, or from nothing. -/
theorem C63_construct_apart {s : Objs S} (hr : Reachable s) (a : CatArg S) (ha : ∀ i, a ≠ .set i) (n : Nat) (hok : (construct s a).2 = .ok n)
    (l : List (Elem S)) :
    (∀ i, i < s.sets.length → categories (step (construct s a).1 (.mutate i l)).1 n = categories (construct s a).1 n) ∧
    ∀ i, (construct s a).1.bounds[n]? = some i → ∀ c, c < s.bounds.length → categories (step (construct s a).1 (.mutate i l)).1 c = categories s c := by
  obtain ⟨h1, h2, ⟨e, h3, h4⟩ | ⟨j, h3, h4, h5, h6, h7⟩⟩ := construct_spec s a (fun i h => absurd h (ha i))
  · rw [h3] at hok; cases hok
  · rw [h4] at hok
    cases hok
    have hj : j = s.sets.length := by cases a <;> simp [choose] at h3 <;> first | exact h3.symm | exact absurd rfl (ha _)
    subst hj
    have hbb : (construct s a).1.bounds[s.bounds.length]? = some s.sets.length := by rw [h5]; simp
    constructor
    · intro i hi
      simp only [SetAlias.categories, step, hbb]
      rw [List.getElem?_set, if_neg (by omega)]
    · intro i hi c hlt
      rw [hbb] at hi
      cases hi
      have hcc : (construct s a).1.bounds[c]? = s.bounds[c]? := by rw [h5, List.getElem?_append_left hlt]
      simp only [SetAlias.categories, step, hcc]
      cases hx : s.bounds[c]? with
      | none => rfl
      | some j =>
        have := reachable_wf hr c j hx
        simp only
        rw [List.getElem?_set, if_neg (by omega), h1 j this]

/-- histories in which no call raised, and the program itself has put only strings into existing sets -/
inductive Tidy : Objs S → Prop where
  | start : Tidy { sets := [], bounds := [] }
  | step {s : Objs S} (op : Op S) : Tidy s → op.valid s → (step s op).2 = true → (∀ i l, op = .mutate i l → l.all Elem.isStr = true) → Tidy (step s op).1

/-- C63: then the categories of all bounds are strings. -/
theorem C63_strings_partial {s : Objs S} (h : Tidy s) (b : Nat) : ∀ e ∈ categories s b, ∃ x, e = .str x := by
  have hr : Reachable s := by
    induction h with
    | start => exact .start
    | step op _ hv _ _ ih => exact .step op ih hv
  have key : ∀ b i : Nat, s.bounds[b]? = some i → allStr s i = true := by
    clear hr
    induction h with
    | start => intro b i h; simp at h
    | @step s op ht hv hok hm ih =>
      have hr : Reachable s := by
        clear ih hm hok hv
        induction ht with
        | start => exact .start
        | step op _ hv _ _ ih => exact .step op ih hv
      have hw := reachable_wf hr
      have same : ∀ b i : Nat, s.bounds[b]? = some i → allStr (SetAlias.step s op).1 i = true := by
        intro b i hb
        have old := ih b i hb
        by_cases hl : op.library
        · have := (step_bounds s op hv).1 hl i (hw b i hb)
          unfold allStr at old ⊢
          rw [this]; exact old
        · cases op with
          | newSet l =>
            simp only [SetAlias.step, allStr] at old ⊢
            rw [List.getElem?_append_left (hw b i hb)]; exact old
          | mutate j l =>
            simp only [SetAlias.step, allStr] at old ⊢
            rw [List.getElem?_set]
            split
            · split
              · simpa using hm j l rfl
              · rfl
            · exact old
          | _ => exact absurd trivial hl
      obtain ⟨_, _, h3 | ⟨j, hj, hs, ⟨h3, _⟩ | ⟨b', _, h3⟩⟩⟩ := step_bounds s op hv
      · intro b i hb
        rw [h3] at hb
        exact same b i hb
      · intro b i hb
        rw [h3] at hb
        rcases List.mem_append.1 (List.mem_of_getElem? hb) with hm' | hm'
        · obtain ⟨k, hk, e⟩ := List.mem_iff_getElem.1 hm'
          exact same k i (by rw [List.getElem?_eq_getElem hk, e])
        · simp only [List.mem_singleton] at hm'
          subst hm'
          exact hs hok
      · intro b i hb
        rw [h3, List.getElem?_set] at hb
        split at hb
        · split at hb
          · cases hb; exact hs hok
          · cases hb
        · exact same b i hb
  intro e he
  unfold categories at he
  split at he
  · rename_i i hb
    have := List.all_eq_true.1 (key b i hb) e he
    cases e with
    | str x => exact ⟨x, rfl⟩
    | nonStr => cases this
  · simp at he

/-- C63: but a set that is given to bounds is not copied: changing it afterwards changes all bounds that were given it, without any check. -/
theorem C63_shared_set_counterexample : ∃ s : Objs String, Reachable s ∧ categories s 0 = [.str "a"] ∧ categories s 1 = [.str "a"] ∧
    categories (step s (.mutate 0 [.str "a", .nonStr])).1 0 = [.str "a", .nonStr] ∧ categories (step s (.mutate 0 [.str "a", .nonStr])).1 1 = [.str "a", .nonStr] :=
  ⟨_, .step (.construct (.set 0)) (.step (.construct (.set 0)) (.step (.newSet [.str "a"]) .start trivial) (by simp [Op.valid, step])) (by simp [Op.valid, step, construct, choose, allStr, Elem.isStr]),
    rfl, rfl, rfl, rfl⟩

/-- the hypotheses of the theorems are met: two bounds that were given the same set, one of which is updated by the other and by a value; the update succeeds and the
other keeps its categories -/
example : ∃ s : Objs String, Tidy s ∧ Reachable s ∧ s.bounds[0]? = s.bounds[1]? ∧ (Op.update 0 [.bounds 1, .value (.ok ["b"])]).valid s ∧
    (update s 0 [.bounds 1, .value (.ok ["b"])]).2 = .ok () ∧ categories (update s 0 [.bounds 1, .value (.ok ["b"])]).1 1 = [.str "a"] ∧
    categories (update s 0 [.bounds 1, .value (.ok ["b"])]).1 0 = [.str "a", .str "a", .str "b"] ∧ (construct s (.list [.str "a"])).2 = .ok 2 := by
  have v1 : (Op.newSet [Elem.str "a"]).valid ({ sets := [], bounds := [] } : Objs String) := trivial
  have v2 : (Op.construct (.set 0)).valid (step ({ sets := [], bounds := [] } : Objs String) (.newSet [.str "a"])).1 := by simp [Op.valid, step]
  have v3 : (Op.construct (.set 0)).valid (step (step ({ sets := [], bounds := [] } : Objs String) (.newSet [.str "a"])).1 (.construct (.set 0))).1 := by
    simp [Op.valid, step, construct, choose, allStr, Elem.isStr]
  refine ⟨_, .step _ (.step _ (.step _ .start v1 rfl (by simp)) v2 rfl (by simp)) v3 rfl (by simp), .step _ (.step _ (.step _ .start v1) v2) v3, rfl, ?_, rfl, rfl, rfl, rfl⟩
  exact ⟨by decide, by simp; decide⟩

end Verif.SetAlias
