import Verif.Props.Declared
/-!
# C68: what a constructor of an interval raises for bounds that are not in order
-/

namespace Verif.Declared
open Verif.Py Verif.Value Verif.Schema

variable {env : Env} {m : Mem}

/-- the classes whose constructor takes bounds, and what is raised for a lower bound above the upper one -/
inductive Reversed : String → PyErr → Prop
  | uniformReal : Reversed "uniform_real" .assertionError
  | uniformInteger : Reversed "uniform_integer" .valueError
  | realBounds : Reversed "real_bounds" .valueError
  | integerBounds : Reversed "integer_bounds" .valueError

theorem get_names {as : List Arg} (f : String → V) {n : String} (h : n ∈ as.map Arg.name) : Dict.get? ((as.map Arg.name).zip (as.map fun a => f a.name)) n = some (f n) := by
  induction as with
  | nil => simp at h
  | cons a as ih =>
    simp only [List.map_cons, List.zip_cons_cons, Dict.get?]
    by_cases e : a.name = n
    · simp [e]
    · rw [if_neg (by simpa using e)]
      apply ih
      simp only [List.map_cons, List.mem_cons] at h
      exact h.resolve_left (fun x => e x.symm)

/-- what is left of a constructor whose arguments are all acceptable -/
theorem construct_rest {t : String} {ps : List Param} {c : Cls} (hp : ∀ p, p ∈ ps ↔ p ∈ c.args.map param) {kwargs : List (String × V)} {attr : String → Option V}
    (ha : Accepted env m ps kwargs attr) : ∃ vals, (∀ n ∈ c.names, Dict.get? (c.names.zip vals) n = attr n) ∧
      ∀ e, checkOrder c (c.names.zip vals) = .error e → construct env m t c kwargs = .error e := by
  have key : ∀ a ∈ c.args, ∃ v w, Given kwargs (param a) v ∧ Stores env m a.kind v w ∧ attr a.name = some w :=
    fun a h => ha (param a) ((hp _).2 (List.mem_map.2 ⟨a, h, rfl⟩))
  refine ⟨c.args.map fun a => (attr a.name).getD .none, ?_, ?_⟩
  · intro n hn
    obtain ⟨a, h1, h2⟩ := List.mem_map.1 hn
    obtain ⟨v, w, -, -, h3⟩ := key a h1
    rw [Cls.names, get_names (fun n => (attr n).getD .none) hn, ← h2, h3]
    rfl
  · intro e he
    obtain ⟨bound, h1, h2⟩ := (setAll_iff (env := env) (m := m) (kwargs := kwargs) (as := c.args) (vals := c.args.map fun a => (attr a.name).getD .none)).2 ⟨by simp, by
      intro p h
      rw [List.zip_map_right, List.mem_map] at h
      obtain ⟨⟨a, a'⟩, h, rfl⟩ := h
      obtain ⟨hm, rfl⟩ : a ∈ c.args ∧ a = a' := by
        have : ∀ (l : List Arg), (a, a') ∈ l.zip l → a ∈ l ∧ a = a' := by
          intro l
          induction l with
          | nil => simp
          | cons b l ih =>
            simp only [List.zip_cons_cons, List.mem_cons, Prod.mk.injEq]
            rintro (⟨rfl, rfl⟩ | h)
            · exact ⟨.inl rfl, rfl⟩
            · exact ⟨.inr (ih h).1, (ih h).2⟩
        exact this _ h
      obtain ⟨v, w, g1, g2, g3⟩ := key a hm
      exact ⟨v, g1, by simpa [g3] using g2⟩⟩
    unfold construct
    simp only [h1, h2, he]

/-- C68: a constructor of an interval whose arguments are all acceptable by themselves raises, if the lower bound is above the upper one, AssertionError for a UniformReal and ValueError for
the others; and TypeError if one of the bounds of a UniformReal is not a number. -/
theorem C68_reversed {t : String} {ps : List Param} (h : Doc t ps) {kwargs : List (String × V)} {attr : String → Option V} (ha : Accepted env m ps kwargs attr) :
    ∃ c, Dict.get? table t = some c ∧
      (∀ e l u a b, Reversed t e → attr "lower_bound" = some l → attr "upper_bound" = some u → Number l a → Number u b → b < a → construct env m t c kwargs = .error e) ∧
      (∀ l u, t = "uniform_real" → attr "lower_bound" = some l → attr "upper_bound" = some u → ¬ ((∃ a, Number l a) ∧ ∃ b, Number u b) → construct env m t c kwargs = .error .typeError) := by
  obtain ⟨c, hc, hp, -⟩ := table_doc h
  obtain ⟨vals, hv, he⟩ := construct_rest (t := t) hp ha
  refine ⟨c, hc, ?_, ?_⟩
  · intro e l u a b hr hl hu hla hub hlt
    apply he
    have hb : c.ordered = some e ∧ "lower_bound" ∈ c.names ∧ "upper_bound" ∈ c.names := by
      cases hr <;> simp [table, Dict.get?] at hc <;> subst hc <;> simp [Cls.names]
    unfold checkOrder
    simp only [hb.1, inOrder, hv _ hb.2.1, hv _ hb.2.2, hl, hu, Option.bind_some, number_iff.2 hla, number_iff.2 hub]
    rw [if_neg (Rat.not_le.2 hlt)]
  · intro l u ht hl hu hn
    apply he
    have hb : c.ordered = some .assertionError ∧ "lower_bound" ∈ c.names ∧ "upper_bound" ∈ c.names := by
      subst ht; simp [table, Dict.get?] at hc; subst hc; simp [Cls.names]
    unfold checkOrder
    simp only [hb.1, inOrder, hv _ hb.2.1, hv _ hb.2.2, hl, hu, Option.bind_some]
    cases h1 : num l with
    | none => rfl
    | some a =>
      cases h2 : num u with
      | none => rfl
      | some b => exact absurd ⟨⟨a, number_iff.1 h1⟩, b, number_iff.1 h2⟩ hn

example (env : Env) (m : Mem) : Accepted env m [req "lower_bound" .intLike, req "upper_bound" .intLike] [("lower_bound", .int 3), ("upper_bound", .int 1)]
    (Dict.get? [("lower_bound", .int 3), ("upper_bound", .int 1)]) ∧ Number (.int 3) 3 ∧ Number (.int 1) 1 := by
  have key : ∀ n : Int, Stores env m .intLike (.int n) (.int n) := fun n => C68_setter.1 (by simp [conv, convIntLike, num])
  refine ⟨?_, number_iff.1 (by simp [num]), number_iff.1 (by simp [num])⟩
  intro p hp
  simp only [List.mem_cons, List.not_mem_nil, or_false] at hp
  rcases hp with rfl | rfl
  · exact ⟨.int 3, .int 3, .given _ rfl, key 3, rfl⟩
  · exact ⟨.int 1, .int 1, .given _ rfl, key 1, rfl⟩

end Verif.Declared
