import Verif.Props.InplaceEx
import Verif.Props.RawCopy
/-!
# C60: when no entity leads to itself

`C60_objects_inplace_partial` asks that no entity leads to itself when links are resolved. This follows from the classes that setters accept, if entities and links
are only where they are meant to be.
-/

set_option linter.unusedSimpArgs false
set_option linter.unusedVariables false
set_option linter.unusedSectionVars false

namespace Verif.Inplace
open Verif.Py Verif.Value Verif.Schema Verif.Json Verif.Substitute

/-- where an entity leads with links resolved is what it has in its attributes once they are resolved -/
theorem leads_holds {env : Env} {index : Dict (String × String) Nat} {m : Mem} (hT : WellTyped env (resolveMem index m)) {o p : Nat} (h : Leads index m o p) :
    Holds (resolveMem index m) o p := by
  obtain ⟨a, u, ha, hu, hp⟩ := h
  have hr : attrAt (resolveMem index m) o a = some (resolve index u) := by rw [resolveMem_attr index m o ha, hu]; rfl
  cases hx : (resolveMem index m)[o]? with
  | none => simp [attrAt, hx] at hr
  | some x =>
    have hg : Dict.get? x.fields a = some (resolve index u) := by simpa only [attrAt, hx] using hr
    have hF := fits_of_typed hT (c := x.cls) (by simp [clsAt, hx]) hr ha
    refine ⟨x, hx, (Equal.lstrip a, getattr (resolveMem index m) x (a, resolve index u)), ?_, ?_⟩
    · unfold asDict
      refine List.mem_cons_of_mem _ (List.mem_cons_of_mem _ (List.mem_map.2 ⟨(a, resolve index u), ?_, rfl⟩))
      exact List.mem_filter.2 ⟨Dict.mem_of_get? hg, decide_eq_true (fun hs => ha (skip_back _ _ hs))⟩
    · unfold getattr
      split
      · rename_i hc
        rcases hc.2 with e | e
        · exact absurd hp (name_subs (hF.name hc.1 e) p)
        · exact absurd hp (labels_subs (hF.labels hc.1 e) p)
      · exact hp

theorem leadsTo_inside {env : Env} {index : Dict (String × String) Nat} {m : Mem} (hT : WellTyped env (resolveMem index m)) {o p : Nat} (h : LeadsTo index m o p) :
    Inside (resolveMem index m) o p := by
  induction h with
  | one h => exact .child (leads_holds hT h)
  | more h _ ih => exact .deeper (leads_holds hT h) ih

theorem reached_nested {env : Env} {index : Dict (String × String) Nat} {m : Mem} (hT : WellTyped env (resolveMem index m)) {v : V} {o : Nat} (h : Reached index m v o) :
    Nested (resolveMem index m) (resolve index v) o := by
  induction h with
  | here h => exact .inl h
  | next _ h ih => exact ih.step (leads_holds hT h)

/-- C60: if attributes hold what their setters take once links are resolved, and entities (or links to them) occur only where attributes are meant to hold them (not
in notes, say), then no entity leads to itself: the hypothesis `acyclic` of `C60_objects_inplace_partial` is not a restriction on such entities. -/
theorem C60_no_cycle {env : Env} {index : Dict (String × String) Nat} {m : Mem} {v : V} (hT : WellTyped env (resolveMem index m))
    (hf : ∀ (o : Nat) (x : EObj), (resolveMem index m)[o]? = some x → FreePlain (asDict (resolveMem index m) x) ∧ ∀ e ∈ asDict (resolveMem index m) x, FreeInside e.2)
    (o : Nat) (ho : Reached index m v o) : ¬ LeadsTo index m o o :=
  fun hc => C57_no_cycle (v := resolve index v) hT (fun o x hx _ => hf o x hx) o (reached_nested hT ho) (leadsTo_inside hT hc)

/-- the hypotheses of `C60_no_cycle` are met: the entities of the example for C60, where an ingredient has a link to its process -/
example : WellTyped plainEnv (resolveMem threeIndex givenMem) ∧ (∀ (o : Nat) (x : EObj), (resolveMem threeIndex givenMem)[o]? = some x →
    FreePlain (asDict (resolveMem threeIndex givenMem) x) ∧ ∀ e ∈ asDict (resolveMem threeIndex givenMem) x, FreeInside e.2) ∧
    Reached threeIndex givenMem (.link "id" "i") 2 ∧ LeadsTo threeIndex givenMem 2 0 :=
  ⟨typed_strip (givenMem_built.2.wellTyped plainEnv_sane) (by decide +kernel), freeAll (by decide +kernel),
    .here (by simp [resolve, put, meaning, threeIndex, Dict.get?, V.subs]),
    .one ⟨"_process", .link "id" "p", by decide, by decide +kernel, by simp [resolve, put, meaning, threeIndex, Dict.get?, V.subs]⟩⟩

end Verif.Inplace
