import Verif.Props.CheckedRead
import Verif.Props.BackLinks
/-!
# C69: what can be loaded at a validation level
-/

set_option linter.unusedSimpArgs false
set_option linter.unusedVariables false
set_option linter.unusedSectionVars false

namespace Verif.Checked
open Verif.Py Verif.Value Verif.Schema Verif.Json Verif.Level Verif.Substitute Verif.Traverse

/-! ## The objects in reach -/

mutual
theorem pass_subs {G : V → Prop} (v : V) (hv : wf v) : PassV G v ↔ ∀ t ns vs, V.obj t ns vs ∈ v.subs → G (.obj t ns vs) := by
  cases v with
  | list l =>
    simp only [wf] at hv
    simp only [PassV, V.subs, List.mem_cons, reduceCtorEq, false_or]
    exact passes_subs l hv
  | tuple l =>
    simp only [wf] at hv
    simp only [PassV, V.subs, List.mem_cons, reduceCtorEq, false_or]
    exact passes_subs l hv
  | dict ks vs =>
    simp only [wf] at hv
    obtain ⟨⟨_, names, hs, _⟩, hv⟩ := hv
    have hk : ∀ t ns us, V.obj t ns us ∉ subss ks := by
      intro t ns us h
      rw [strings_eq hs] at h
      obtain ⟨w, hw, h⟩ := mem_subss.1 h
      obtain ⟨n, _, rfl⟩ := List.mem_map.1 hw
      simp [V.subs] at h
    simp only [PassV, V.subs, List.mem_cons, reduceCtorEq, false_or, List.mem_append, hk]
    exact passes_subs vs hv
  | obj t ns vs =>
    simp only [wf] at hv
    simp only [PassV, V.subs, List.mem_cons]
    rw [passes_subs vs hv.2]
    constructor
    · rintro ⟨h1, h2⟩ t' ns' vs' (h | h)
      · cases h; exact h1
      · exact h2 _ _ _ h
    · intro h
      exact ⟨h _ _ _ (.inl rfl), fun t' ns' vs' h' => h _ _ _ (.inr h')⟩
  | _ => simp [PassV, V.subs]
termination_by structural v
theorem passes_subs {G : V → Prop} (l : List V) (hl : wfs l) : PassVs G l ↔ ∀ t ns vs, V.obj t ns vs ∈ subss l → G (.obj t ns vs) := by
  cases l with
  | nil => simp [PassVs, subss]
  | cons v l =>
    simp only [wfs] at hl
    simp only [PassVs, subss, List.mem_append]
    rw [pass_subs v hl.1, passes_subs l hl.2]
    exact ⟨fun ⟨h1, h2⟩ t ns vs h => h.elim (h1 t ns vs) (h2 t ns vs), fun h => ⟨fun t ns vs h' => h t ns vs (.inl h'), fun t ns vs h' => h t ns vs (.inr h')⟩⟩
termination_by structural l
end

/-- what is in reach occurs in the root or in some attribute of an entity in reach, or is a part of a link -/
theorem reach_at {m : Mem} {root w : V} (h : Reachable m false root w) : w ∈ root.subs ∨
    (∃ o x, Reachable m false root (.ref o) ∧ m[o]? = some x ∧ ∃ f ∈ x.fields, w ∈ f.2.subs) ∨ ∃ s, w = .str s := by
  induction h with
  | refl => exact .inl (self_mem_subs _)
  | @step v w hv hc ih =>
    by_cases hr : ∃ o, v = .ref o
    · obtain ⟨o, rfl⟩ := hr
      cases hc with
      | field hx hm _ => exact .inr (.inl ⟨_, _, hv, hx, _, hm, self_mem_subs _⟩)
    · by_cases hl : ∃ s i, v = .link s i
      · obtain ⟨s, i, rfl⟩ := hl
        cases hc with
        | scope => exact .inr (.inr ⟨_, rfl⟩)
        | id => exact .inr (.inr ⟨_, rfl⟩)
      · have hin := child_in hc (fun o e => hr ⟨o, e⟩) (fun s i e => hl ⟨s, i, e⟩)
        rcases ih with h | ⟨o, x, ho, hx, f, hf, h⟩ | ⟨s, rfl⟩
        · exact .inl (Substitute.subs_trans _ _ _ h hin)
        · exact .inr (.inl ⟨o, x, ho, hx, f, hf, Substitute.subs_trans _ _ _ h hin⟩)
        · cases hc

/-- the values that a well-typed entity keeps beside those of the constructor hold no objects -/
theorem own_plain {env : Env} {m : Mem} {obj : V} (h : Writable env m obj) {o : Nat} {x : EObj} (hx : m[o]? = some x) (ho : Reachable m false obj (.ref o))
    {vals : List V} {own : List (String × V)} (hs : Shape env m x vals own) {e : String × V} (he : e ∈ own) {t : String} {ns : List String} {vs : List V} :
    V.obj t ns vs ∉ e.2.subs := by
  obtain ⟨vals', own', hs', hi⟩ := h.graph.typed o x hx
  obtain ⟨rfl, rfl⟩ := Shape.unique hs hs'
  have hstr : ∀ v, isStr v = true → V.obj t ns vs ∉ v.subs := by
    intro v hv hm
    cases v <;> simp [isStr] at hv
    simp [V.subs] at hm
  by_cases hc : x.cls = .ingredientRun
  · obtain ⟨name, labels, rfl, h1, h2⟩ := hi hc
    simp only [List.mem_cons, List.not_mem_nil, or_false] at he
    rcases he with rfl | rfl
    · rcases h1 with rfl | h1
      · simp [V.subs]
      · exact hstr _ h1
    · rcases h2 with rfl | ⟨l, rfl, h2⟩
      · simp [V.subs]
      · intro hm
        simp only [V.subs, List.mem_cons, reduceCtorEq, false_or, mem_subss] at hm
        obtain ⟨w, hw, hm⟩ := hm
        exact hstr _ (h2 w hw) hm
  · have hn : e.1 ∈ backNames := by
      have : e.1 ∈ own.map Prod.fst := List.mem_map.2 ⟨e, he, rfl⟩
      rw [hs.own] at this
      obtain ⟨g, hg, e1⟩ := List.mem_map.1 this
      rw [← e1]
      exact ownFields_back _ hc g hg
    have hnd : (own.map Prod.fst).Nodup := by
      have key : ∀ c : ECls, ((ownFields c).map Prod.fst).Nodup := by intro c; cases c <;> decide +kernel
      rw [hs.own]; exact key _
    have hgt : Dict.get? x.fields e.1 = some e.2 := by
      rw [hs.fields, get?_append, get?_zip_none _ _ _ (backNames_args x.cls _ hn), Option.none_or]
      exact Dict.get?_of_mem hnd he
    generalize e.2 = v at *
    cases h.back o x hx ho _ hn v hgt with
    | none _ _ => simp [V.subs]
    | one a _ _ _ => simp [V.subs]
    | many as _ _ _ _ =>
      intro hm
      simp only [V.subs, List.mem_cons, reduceCtorEq, false_or, mem_subss] at hm
      obtain ⟨w, hw, hm⟩ := hm
      obtain ⟨a, _, rfl⟩ := List.mem_map.1 hw
      simp [V.subs] at hm

/-- the records and the object pass where everything in reach does -/
theorem pass_reach {env : Env} {J : Judge} {l : Level} {m M : Mem} {obj : V} {L : List Nat} (h : Writable env m obj) (hg : Grows m M)
    (hget : ∀ o ∈ L, M[o]? = m[o]?) (hL : ∀ o, o ∈ L ↔ o < m.length ∧ Reachable m false obj (.ref o)) :
    ((∀ o ∈ L, PassE env J l M m o) ∧ PassV (fun u => guard J l m u = .ok ()) obj) ↔ ∀ u, Reachable m false obj u → guard J l m u = .ok () := by
  have hmem : ∀ {x : EObj} {vals : List V} {own : List (String × V)}, Shape env m x vals own → ∀ v ∈ vals, ∃ a, (a, v) ∈ asDict m x ∧ ∃ n, (n, v) ∈ x.fields := by
    intro x vals own hs v hv
    obtain ⟨i, hi, rfl⟩ := List.getElem_of_mem hv
    have := hs.len
    refine ⟨(eargs x.cls)[i].name, ?_, (eargs x.cls)[i].attr, ?_⟩
    · rw [asDict_eq hs m]
      apply List.mem_cons_of_mem
      apply List.mem_cons_of_mem
      apply List.mem_append_left
      rw [List.zip_map_left]
      exact List.mem_map.2 ⟨((eargs x.cls)[i], vals[i]), zip_nth (by omega) (by omega), rfl⟩
    · rw [hs.fields, List.zip_map_left]
      exact List.mem_append_left _ (List.mem_map.2 ⟨((eargs x.cls)[i], vals[i]), zip_nth (by omega) (by omega), rfl⟩)
  rw [pass_subs obj h.wf]
  constructor
  · rintro ⟨h1, h2⟩ u hu
    by_cases hobj : ∃ t ns vs, u = .obj t ns vs
    · obtain ⟨t, ns, vs, rfl⟩ := hobj
      rcases reach_at hu with hin | ⟨o, x, ho, hx, f, hf, hin⟩ | ⟨s, e⟩
      · exact h2 _ _ _ hin
      · obtain ⟨vals, own, hs, _⟩ := h.graph.typed o x hx
        rw [hs.fields] at hf
        rcases List.mem_append.1 hf with hf | hf
        · have hv := (List.of_mem_zip (a := f.1) (b := f.2) hf).2
          have hoL := (hL o).2 ⟨h.there o ho, ho⟩
          have := (h1 o hoL x vals own ((hget o hoL).trans hx) (hs.grows hg)).1 f.2 hv
          obtain ⟨a, ha, _⟩ := hmem hs _ hv
          rw [pass_subs _ (h.graph.plain o x hx ho _ ha).1] at this
          exact this _ _ _ hin
        · exact absurd hin (own_plain h hx ho hs hf)
      · cases e
    · by_cases hr : ∃ o, u = .ref o
      · obtain ⟨o, rfl⟩ := hr
        have hoL := (hL o).2 ⟨h.there o hu, hu⟩
        obtain ⟨x, hx⟩ : ∃ x, m[o]? = some x := ⟨_, List.getElem?_eq_getElem (h.there o hu)⟩
        obtain ⟨vals, own, hs, _⟩ := h.graph.typed o x hx
        exact (h1 o hoL x vals own ((hget o hoL).trans hx) (hs.grows hg)).2
      · cases u <;> first | rfl | exact absurd ⟨_, rfl⟩ hr | exact absurd ⟨_, _, _, rfl⟩ hobj
  · intro hall
    refine ⟨?_, fun t ns vs hin => hall _ (reach_subs m false obj h.wf _ hin)⟩
    intro o ho x vals own hx hs
    obtain ⟨hlt, hr⟩ := (hL o).1 ho
    have hx' := (hget o ho).symm.trans hx
    obtain ⟨vals', own', hs', _⟩ := h.graph.typed o x hx'
    obtain ⟨rfl, rfl⟩ := Shape.unique hs' hs
    refine ⟨?_, hall _ hr⟩
    intro v hv
    obtain ⟨a, ha, n, hn⟩ := hmem hs' v hv
    have hwf := (h.graph.plain o x hx' hr _ ha).1
    rw [pass_subs v hwf]
    intro t ns vs hin
    have hc : Child m false (.ref o) v := .field hx' hn (by simp)
    exact hall _ ((hr.step hc).trans (reach_subs m false v hwf _ hin))

/-- what was written can be read at a level where everything in reach passes the checks of that level -/
theorem written_at {env : Env} {J : Judge} {m : Mem} {obj : V} (hJ : Fair env.lower J) (h : Writable env m obj) (hu : Identified m obj) :
    ∃ (n : Nat) (l : List V) (M : Mem) (t : V), (∀ n' ≥ n, flattenSet env n' m (mkDict [("object", obj)]) = some (.ok (l, M))) ∧ (∃ ys, M = m ++ ys) ∧
      writeContext env M (mkDict [("object", obj)]) l = .ok (t, M) ∧
      ∀ (M0 : Mem) (lv : Level) (r : V × Mem), loadsAt J lv env M0 t = .ok r ↔ loads env M0 t = .ok r ∧ ∀ u, Reachable m false obj u → guard J lv m u = .ok () := by
  obtain ⟨n, M, ps, ys, L, h1, ⟨l, rfl⟩, h3, h4, hS, hL, h5, h6⟩ := flat_source h hu
  have hrL : ∀ p, V.ref p ∈ obj.subs → p ∈ L := by
    intro p hp
    have hr := reach_subs m false obj h.wf _ hp
    exact (hL p).2 ⟨h.there p hr, hr⟩
  have hget : ∀ a, a < m.length → (m ++ l)[a]? = m[a]? := fun a ha => List.getElem?_append_left ha
  have hok : okV env (m ++ l) obj := okV_grows (Grows.append m l) obj h.ok
  have hIn : Input env (m ++ l) none true (mkDict [("object", obj)]) (linkOf env.lower none true m) obj := by
    refine ⟨h.wf, hok, h.noTuple, ?_⟩
    intro o ho
    obtain ⟨hlt, hr⟩ := (hL o).1 (hrL o ho)
    have hx := List.getElem?_eq_getElem hlt
    obtain ⟨s, i, e1, e2, _⟩ := linkOf_ok (lower := env.lower) (scope := none) (fallback := true) hx ⟨hu o _ hx hr, .inl rfl⟩
    refine ⟨by simp [mkDict], _, s, i, (hget o hlt).trans hx, e1, e2⟩
  obtain ⟨w, hw1, hw2⟩ := write_context h3 hIn (fun i i1 i2 => by
    refine ⟨h5 i i1 i2, ?_⟩
    obtain ⟨x, hx, hc⟩ := h6 i (by omega) i2
    exact ⟨x, hS.plain _ (List.getElem_mem _) x hx, hc⟩)
  refine ⟨n, _, m ++ l, _, h1, ⟨l, rfl⟩, hw1, ?_⟩
  intro M0 lv r
  have hfor : ∀ s i, V.link s i ∈ obj.subs → ∀ p ∈ L, ¬ Carries env.lower (m ++ l) p (env.lower s) i := by
    intro s i hl p hp hc
    obtain ⟨hlt, hr⟩ := (hL p).1 hp
    exact h.foreign s i p (reach_subs m false obj h.wf _ hl) hr ((carries_append hlt).1 hc)
  have hgL : ∀ o ∈ L, (m ++ l)[o]? = m[o]? := fun o ho => hget o ((hL o).1 ho).1
  rw [loadsAt_iff, context_calls hJ hS hgL lv h4 h6 h.wf h.noTuple hok hrL hfor hw2 M0, pass_reach h (Grows.append m l) hgL hL]

end Verif.Checked
