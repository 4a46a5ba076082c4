import Verif.Props.CheckedThm
import Verif.Props.EditedEx
/-!
# C69: a process whose condition is out of bounds
-/

set_option linter.unusedSimpArgs false
set_option linter.unusedVariables false

namespace Verif.Checked
open Verif.Py Verif.Value Verif.Schema Verif.Json Verif.Level Verif.Substitute Verif.Traverse

mutual
/-- a value whose objects their constructors accept as they are -/
def fit (env : Env) (m : Mem) : V → Bool
  | .list l => fits env m l
  | .tuple l => fits env m l
  | .dict ks vs => (strings ks).isSome && fits env m vs
  | .obj t ns vs => (match Dict.get? table t with
    | some c => decide (construct env m t c (ns.zip vs) = .ok (.obj t ns vs))
    | none => false) && fits env m vs
  | _ => true
def fits (env : Env) (m : Mem) : List V → Bool
  | [] => true
  | v :: vs => fit env m v && fits env m vs
end

mutual
theorem fit_made {env : Env} {m : Mem} (v : V) (h : fit env m v = true) : Made env m v ∧ strKeys v := by
  cases v with
  | list l => exact ⟨.list _ (fun v hv => (fits_made l h v hv).1), by simp [strKeys]⟩
  | tuple l => exact ⟨.tuple _ (fun v hv => (fits_made l h v hv).1), by simp [strKeys]⟩
  | dict ks vs =>
    simp only [fit, Bool.and_eq_true] at h
    refine ⟨.dict _ _ (fun v hv => (fits_made vs h.2 v hv).1), ?_⟩
    simp only [strKeys]
    intro e
    rw [e] at h
    simp at h
  | obj t ns vs =>
    simp only [fit, Bool.and_eq_true] at h
    obtain ⟨h1, h2⟩ := h
    split at h1
    · rename_i c hc
      have key := fits_made (env := env) (m := m) vs h2
      exact ⟨.obj t c (ns.zip vs) _ hc (of_decide_eq_true h1) (fun kv hkv => (key _ (List.of_mem_zip hkv).2).1) (fun kv hkv => (key _ (List.of_mem_zip hkv).2).2),
        by simp [strKeys]⟩
    · cases h1
  | none => exact ⟨.none, by simp [strKeys]⟩
  | bool b => exact ⟨.bool b, by simp [strKeys]⟩
  | int b => exact ⟨.int b, by simp [strKeys]⟩
  | float b => exact ⟨.float b, by simp [strKeys]⟩
  | str b => exact ⟨.str b, by simp [strKeys]⟩
  | link a b => exact ⟨.link a b, by simp [strKeys]⟩
  | ref b => exact ⟨.ref b, by simp [strKeys]⟩
termination_by structural v
theorem fits_made {env : Env} {m : Mem} (l : List V) (h : fits env m l = true) : ∀ v ∈ l, Made env m v ∧ strKeys v := by
  cases l with
  | nil => simp
  | cons v vs =>
    simp only [fits, Bool.and_eq_true] at h
    exact List.forall_mem_cons.2 ⟨fit_made v h.1, fits_made vs h.2⟩
termination_by structural l
end

/-- call constructors one after the other, with arguments that fit -/
def make (env : Env) : Mem → List (ECls × List (String × V)) → Except PyErr Mem
  | m, [] => .ok m
  | m, (c, kwargs) :: rest => match constructE env m c kwargs with
    | .error e => .error e
    | .ok (_, m') => if kwargs.all (fun e => fit env m e.2) then make env m' rest else .error .other

theorem make_built {env : Env} {calls : List (ECls × List (String × V))} {m m' : Mem} (hb : Built env m) (h : make env m calls = .ok m') : Built env m' := by
  induction calls generalizing m with
  | nil => cases h; exact hb
  | cons c calls ih =>
    obtain ⟨c, kwargs⟩ := c
    simp only [make] at h
    split at h
    · cases h
    · rename_i o m1 hc
      split at h
      · rename_i hk
        exact ih (Built.call m c kwargs o m1 hb (fun e he => fit_made _ (List.all_eq_true.1 hk e he)) hc) h
      · cases h

/-- `RealBounds(a, b, "")` -/
def real (a b : Int) : V := .obj "real_bounds" ["default_units", "lower_bound", "upper_bound"] [.str "", .float a, .float b]

/-- `NominalReal(x, "")` -/
def nominal (x : Int) : V := .obj "nominal_real" ["units", "nominal"] [.str "", .float x]

/-- `Condition("c", value=x, template=t)` -/
def heat (x t : V) : V := .obj "condition" ["name", "notes", "value", "template", "origin", "file_links"] [.str "c", .none, x, t, .str "unknown", .list []]

/-- a condition template, a process template that narrows its bounds, a process within both, one within the first only, one within neither, and one with an ingredient -/
def plantCalls : List (ECls × List (String × V)) :=
  [(.conditionTemplate, [("name", .str "t"), ("bounds", real 0 10)]),
   (.processTemplate, [("name", .str "p"), ("conditions", .list [.list [.ref 0, real 0 5]])]),
   (.processSpec, [("name", .str "good"), ("template", .ref 1), ("conditions", .list [heat (nominal 3) (.ref 0)])]),
   (.processSpec, [("name", .str "hot"), ("template", .ref 1), ("conditions", .list [heat (nominal 7) (.ref 0)])]),
   (.processSpec, [("name", .str "burnt"), ("conditions", .list [heat (nominal 11) (.ref 0)])]),
   (.processSpec, [("name", .str "mixed")]),
   (.ingredientSpec, [("name", .str "i"), ("process", .ref 5), ("absolute_quantity", nominal 2)])]

/-- what they make -/
def plant : Mem := match make plainEnv [] plantCalls with
  | .ok m => m
  | .error _ => []

theorem plant_built : Built plainEnv plant ∧ plant.length = 7 := by
  have h : make plainEnv [] plantCalls = .ok plant ∧ plant.length = 7 := by decide +kernel
  exact ⟨make_built .nil h.1, h.2⟩

theorem plant_writable {o : Nat} (ho : o < 7) : Writable plainEnv plant (.ref o) := by
  have hb := plant_built.1
  have noids : ∀ {p : Nat} {s i : String}, ¬ Carries plainEnv.lower plant p s i := by
    rintro p s i ⟨x, hx, sc, h1, _⟩
    have key : ∀ x ∈ plant, x.uids = [] := by decide +kernel
    rw [key x (List.mem_of_getElem? hx)] at h1
    cases h1
  refine ⟨flattenOk_spec (hb.wellTyped plainEnv_sane) ?_, ?_, by simp [wf], by simp [noTuple], by simp [okV], fun o p s i _ _ h1 _ => absurd h1 noids,
    fun s i p _ _ => noids, Built.backLinked plainEnv_sane hb ?_⟩
  · have : ∀ o ∈ List.range 7, flattenOk plant (.ref o) = true := by decide +kernel
    exact this o (List.mem_range.2 ho)
  · intro p hp
    rcases reach_in hp with h | ⟨x, hx, f, hf, h⟩ | ⟨s, h⟩
    · simp [V.subs] at h
      rw [plant_built.2]; omega
    · have key : ∀ x ∈ plant, ∀ f ∈ x.fields, ∀ w ∈ f.2.subs, (match w with | .ref p => decide (p < plant.length) | _ => true) = true := by decide +kernel
      simpa using key x hx f hf _ h
    · cases h
  · intro a c b _ _ h1 h2
    exact (Assign.oneB_spec (by decide +kernel) : Assign.OneOutput plant) c a b h2 h1

theorem plant_fresh (o : Nat) : Fresh plainEnv.lower plant (.ref o) "auto" xs 0 := by
  refine ⟨xs_inj, ?_, ?_⟩
  · rintro k _ p _ ⟨x, hx, sc, h1, _⟩
    have key : ∀ x ∈ plant, x.uids = [] := by decide +kernel
    rw [key x (List.mem_of_getElem? hx)] at h1
    cases h1
  · intro k _ s h
    rcases reach_in h with h | ⟨x, hx, f, hf, h⟩ | ⟨s, h⟩
    · simp [V.subs] at h
    · have key : ∀ x ∈ plant, ∀ f ∈ x.fields, ∀ w ∈ f.2.subs, (match w with | .link _ _ => false | _ => true) = true := by decide +kernel
      simpa using key x hx f hf _ h
    · cases h

/-- what is read of what is written at a level -/
def again (lv : Level) (o : Nat) : Option (Except PyErr Nat) := match dumps plainEnv "auto" xs 200 plant 0 (.ref o) with
  | some (.ok (t, _)) => some (match loadsAt (simple plainEnv.lower) lv plainEnv [] t with
    | .ok (_, m') => .ok m'.length
    | .error e => .error e)
  | _ => none

theorem refs_in {m : Mem} (S : List Nat) (hS : S.all (fun o => match m[o]? with
    | some x => x.fields.all (fun f => f.2.subs.all (fun w => match w with | .ref p => decide (p ∈ S) | _ => true))
    | none => true) = true) {r : Nat} (hr : r ∈ S) {u : V} (h : Reachable m false (.ref r) u) :
    (∀ p, V.ref p ∈ u.subs → p ∈ S) ∧ (u = .ref r ∨ (∃ s, u = .str s) ∨ ∃ o ∈ S, ∃ x, m[o]? = some x ∧ ∃ f ∈ x.fields, u ∈ f.2.subs) := by
  have key : ∀ o ∈ S, ∀ x, m[o]? = some x → ∀ f ∈ x.fields, ∀ p, V.ref p ∈ f.2.subs → p ∈ S := by
    intro o ho x hx f hf p hp
    have := List.all_eq_true.1 hS o ho
    rw [hx] at this
    simpa using List.all_eq_true.1 (List.all_eq_true.1 this f hf) _ hp
  induction h with
  | refl => exact ⟨by simp [V.subs, hr], .inl rfl⟩
  | @step v w hv hc ih =>
    by_cases href : ∃ o, v = .ref o
    · obtain ⟨o, rfl⟩ := href
      have ho : o ∈ S := ih.1 o (self_mem_subs _)
      cases hc with
      | field hx hf _ => exact ⟨fun p hp => key o ho _ hx _ hf p hp, .inr (.inr ⟨o, ho, _, hx, _, hf, self_mem_subs _⟩)⟩
    · by_cases hl : ∃ s i, v = .link s i
      · obtain ⟨s, i, rfl⟩ := hl
        cases hc <;> exact ⟨by simp [V.subs], .inr (.inl ⟨_, rfl⟩)⟩
      · have hw : w ∈ v.subs := child_in hc (fun o e => href ⟨o, e⟩) (fun s i e => hl ⟨s, i, e⟩)
        refine ⟨fun p hp => ih.1 p (Verif.Substitute.subs_trans v w _ hw hp), ?_⟩
        rcases ih.2 with rfl | ⟨s, rfl⟩ | ⟨o, ho, x, hx, f, hf, h⟩
        · exact absurd ⟨_, rfl⟩ href
        · simp only [V.subs, List.mem_cons, List.not_mem_nil, or_false] at hw
          exact .inr (.inl ⟨s, hw⟩)
        · exact .inr (.inr ⟨o, ho, x, hx, f, hf, Verif.Substitute.subs_trans _ v w h hw⟩)

/-- The hypotheses of `C69_fatal_partial` and `C69_warning_partial` are met, and both cases occur: the first process is read back at FATAL; the second, whose value is outside the
bounds of the entry, the third, whose value is outside the bounds of its own template, and the one whose ingredient has an absolute quantity are not. All are at WARNING. -/
example : Fair plainEnv.lower (simple plainEnv.lower) ∧ Total (simple plainEnv.lower) ∧
    (∀ o < 7, Writable plainEnv plant (.ref o) ∧ Fresh plainEnv.lower plant (.ref o) "auto" xs 0 ∧ Listed plant (.ref o)) ∧
    again .fatal 2 = some (.ok 3) ∧ again .fatal 3 = some (.error .valueError) ∧ again .fatal 4 = some (.error .valueError) ∧
    again .fatal 5 = some (.error .valueError) ∧ again .warning 3 = some (.ok 3) ∧ again .warning 4 = some (.ok 2) ∧ again .warning 5 = some (.ok 2) := by
  refine ⟨simple_fair _, simple_total _, fun o ho => ⟨plant_writable ho, plant_fresh o, ?_⟩, ?_⟩
  · intro T n l _ hn hl t b hm
    have key : ∀ x ∈ plant, ∀ f ∈ x.fields, f.1 = "_properties" ∨ f.1 = "_conditions" ∨ f.1 = "_parameters" → ∀ w ∈ items f.2,
        (match w with | .list [.ref _, _] => true | .list [_, _] => false | _ => true) = true := by decide +kernel
    unfold field at hl
    simp only at hl
    split at hl
    · rename_i x hx
      cases hg : Dict.get? x.fields n with
      | none => simp [hg] at hl
      | some v =>
        simp only [hg, Option.getD_some] at hl
        subst hl
        have := key x (List.mem_of_getElem? hx) _ (Dict.mem_of_get? hg) hn _ (by simpa [items] using hm)
        cases t <;> simp at this ⊢
    · cases hl
  · decide +kernel

/-- all that is in reach of the first process is sound, and something in reach of the second is not -/
example : (∀ u, Reachable plant false (.ref 2) u → Sound (simple plainEnv.lower) plant u) ∧
    ∃ u, Reachable plant false (.ref 3) u ∧ ¬ Sound (simple plainEnv.lower) plant u := by
  constructor
  · intro u hu
    rw [← guard_fatal]
    have hS := (refs_in [2, 1, 0] (by decide +kernel) (by simp) hu).2
    have key : ∀ o ∈ [2, 1, 0], ∀ x ∈ plant[o]?, ∀ f ∈ x.fields, ∀ w ∈ f.2.subs, guard (simple plainEnv.lower) .fatal plant w = .ok () := by decide +kernel
    rcases hS with rfl | ⟨s, rfl⟩ | ⟨o, ho, x, hx, f, hf, h⟩
    · decide +kernel
    · rfl
    · exact key o ho x hx f hf u h
  · refine ⟨.ref 3, .refl _, fun h => ?_⟩
    rw [← guard_fatal] at h
    revert h
    decide +kernel

/-- C69: at level WARNING, the default, something can be unreadable. An object template lists a link; then an attribute without a template, whose name is compared with that of
the link, raises AttributeError. -/
theorem C69_link_counterexample : ∃ m t M, Built plainEnv m ∧ Flattenable plainEnv m (.ref 1) ∧ dumps plainEnv "auto" xs 200 m 0 (.ref 1) = some (.ok (t, M)) ∧
    (∃ r, loadsAt (simple plainEnv.lower) .ignore plainEnv [] t = .ok r) ∧ loadsAt (simple plainEnv.lower) .warning plainEnv [] t = .error .attributeError := by
  have h : (match make plainEnv [] [(.processTemplate, [("name", .str "p"), ("conditions", .list [.list [.link "id" "far", .none]])]),
      (.processSpec, [("name", .str "x"), ("template", .ref 0), ("conditions", .list [heat (nominal 3) .none])])] with
    | .ok m => flattenOk m (.ref 1) && (match dumps plainEnv "auto" xs 200 m 0 (.ref 1) with
      | some (.ok (t, _)) => (loadsAt (simple plainEnv.lower) .ignore plainEnv [] t).toOption.isSome &&
          decide (loadsAt (simple plainEnv.lower) .warning plainEnv [] t = .error .attributeError)
      | _ => false)
    | .error _ => false) = true := by decide +kernel
  split at h
  · rename_i m hm
    have hb : Built plainEnv m := make_built .nil hm
    obtain ⟨h1, h2⟩ := (Bool.and_eq_true _ _).mp h
    split at h2
    · rename_i t M hd
      obtain ⟨h3, h4⟩ := (Bool.and_eq_true _ _).mp h2
      refine ⟨m, t, M, hb, flattenOk_spec (hb.wellTyped plainEnv_sane) h1, hd, ?_, of_decide_eq_true h4⟩
      cases hl : loadsAt (simple plainEnv.lower) .ignore plainEnv [] t with
      | ok r => exact ⟨r, rfl⟩
      | error e => simp [hl, Except.toOption] at h3
    · cases h2
  · cases h

end Verif.Checked
