import Verif.Props.InplaceObjects
import Verif.Props.ResolveIndex
/-!
# C60: the hypotheses can be met, and what happens when they are not
-/

set_option linter.unusedSimpArgs false
set_option linter.unusedVariables false
set_option linter.unusedSectionVars false

namespace Verif.Inplace
open Verif.Py Verif.Value Verif.Schema Verif.Json Verif.Substitute

/-- entities made by constructors: two-way links are as they should be, if no two materials have the same process -/
theorem built_twoWay {env : Env} (hsane : Sane env) {m : Mem} (h : Built env m)
    (hone : ∀ a c b, Points m "_output_material" a b → Points m "_output_material" c b → c = a) : TwoWay m := by
  intro b n v hn hv
  unfold attrAt at hv
  split at hv
  · rename_i x hx
    obtain ⟨vals, own, hs, _⟩ := h.wellTyped hsane b x hx
    obtain ⟨name, labels, e⟩ := Built.backInv hsane h b x vals own hx hs
    have hgx : Dict.get? x.fields n = Dict.get? own n := by
      rw [hs.fields, get?_append, get?_zip_none _ _ _ (backNames_args x.cls n hn)]; rfl
    have hc : x.cls ≠ .ingredientRun := by
      intro hc
      rw [hgx, e] at hv
      unfold ownAt at hv
      rw [if_pos hc] at hv
      have : ∀ n ∈ backNames, n ≠ "_name" ∧ n ≠ "_labels" := by decide +kernel
      have := this n hn
      simp [Dict.get?, Ne.symm this.1, Ne.symm this.2] at hv
    have hv2 := hv
    rw [hgx, e] at hv
    unfold ownAt at hv
    rw [if_neg hc, get?_mapFst _ (fun k => backVal k (backers m .ref (List.range m.length) k b))] at hv
    split at hv
    · cases hv
      have hpt : ∀ a, a ∈ (List.range m.length).filter (fun o' => pointsBack m n o' b) ↔ Points m n a b := by
        intro a
        rw [List.mem_filter, List.mem_range, points_iff]
        refine ⟨fun h => h.2, fun h => ⟨?_, h⟩⟩
        cases h with
        | output h _ _ => exact (List.getElem?_eq_some_iff.1 h).1
        | ingredient h _ _ => exact (List.getElem?_eq_some_iff.1 h).1
        | measurement h _ _ => exact (List.getElem?_eq_some_iff.1 h).1
      have hnd : ((List.range m.length).filter (fun o' => pointsBack m n o' b)).Nodup := List.nodup_range.filter _
      unfold backVal backers at hv2 ⊢
      generalize (List.range m.length).filter (fun o' => pointsBack m n o' b) = bs at *
      by_cases hno : n = "_output_material"
      · rw [if_pos hno] at hv2 ⊢
        rw [List.getLast?_map] at hv2 ⊢
        cases hl : bs.getLast? with
        | none =>
          refine .none hno (fun a hp => ?_)
          rw [List.getLast?_eq_none_iff] at hl
          subst hl
          simpa using (hpt a).2 hp
        | some a =>
          have ha := (hpt a).1 (List.mem_of_getLast? hl)
          subst hno
          exact .one a rfl ha (fun c hp => hone a c b ha hp)
      · rw [if_neg hno]
        exact .many bs hno hnd hpt
    · cases hv
  · cases hv

/-! ## A concrete case -/

/-- `m` without the back-links -/
def strip (m : Mem) : Mem := m.map (fun x => { x with fields := x.fields.map (fun f => if f.1 ∈ backNames then (f.1, .none) else f) })

theorem strip_skel (m : Mem) : (strip m).map skel = m.map skel := by
  unfold strip
  rw [List.map_map]
  refine List.map_congr_left (fun x _ => ?_)
  simp only [Function.comp_apply, skel, List.map_map, Prod.mk.injEq, true_and]
  refine List.map_congr_left (fun f _ => ?_)
  simp only [Function.comp_apply]
  split <;> rfl

theorem strip_attr (m : Mem) (o : Nat) {a : String} (ha : a ∉ backNames) : attrAt (strip m) o a = attrAt m o a := by
  unfold attrAt strip
  rw [List.getElem?_map]
  cases hx : m[o]? with
  | none => rfl
  | some x =>
    simp only [Option.map_some]
    induction x.fields with
    | nil => rfl
    | cons f fs ih =>
      obtain ⟨n, v⟩ := f
      simp only [List.map_cons]
      by_cases e : n = a
      · subst e
        simp [ha, Dict.get?]
      · split <;> simp only [Dict.get?, e, if_false] <;> exact ih

/-- back-links do not matter for being well-typed -/
theorem typed_strip {env : Env} {m m' : Mem} (h : WellTyped env m) (e : strip m' = strip m) : WellTyped env m' := by
  have hsk : m'.map skel = m.map skel := by rw [← strip_skel m', e, strip_skel]
  have hat : ∀ o a, a ∉ backNames → attrAt m' o a = attrAt m o a := fun o a ha => by rw [← strip_attr m' o ha, e, strip_attr m o ha]
  refine typed_of_fits (fun o x hx => ?_)
  obtain ⟨x0, hx0, hs⟩ := skel_at hsk.symm hx
  have e1 : x0.cls = x.cls := congrArg Prod.fst hs
  have e2 : x0.fields.map Prod.fst = x.fields.map Prod.fst := congrArg (fun s => s.2.2) hs
  have e3 : x0.uids = x.uids := congrArg (fun s => s.2.1) hs
  refine ⟨by rw [← e1, ← e2]; exact typed_names h hx0, ?_, fun a u ha hu => ?_⟩
  · obtain ⟨_, _, hs, _⟩ := h o x0 hx0
    rw [← e3]
    exact hs.uids
  · exact (fits_of_typed h (o := o) (by simp [clsAt, hx0, e1]) (by rw [← hat o a ha]; exact hu) ha).grows
      (grows_between hsk (fun q b hb => by rw [hat q _ (by decide)]; exact hb))

/-- a value that is easy to see through -/
def simple : V → Bool
  | .tuple _ => false
  | .dict _ _ => false
  | .obj _ _ _ => false
  | .list l => l.all (fun v => match v with | .str _ => true | .ref _ => true | .link _ _ => true | _ => false)
  | _ => true

theorem simple_plain {v : V} (h : simple v = true) : Plain v := by
  cases v <;> simp only [simple] at h <;> first | trivial | cases h | skip
  rename_i l
  simp only [Plain]
  refine (plains_iff l).2 (fun w hw => ?_)
  have := List.all_eq_true.1 h w hw
  cases w <;> first | trivial | simp at this

/-- all that is to be checked of a small memory: attributes are simple, and lead to entities made before -/
def smallOk (index : Dict (String × String) Nat) (m : Mem) : Bool := (List.range m.length).all fun o => match m[o]? with
  | some x => x.fields.all fun f => decide (f.1 ∈ backNames) || (simple f.2 && (resolve index f.2).subs.all (fun w => match w with | .ref p => decide (p < o) | _ => true))
  | none => true

theorem smallOk_spec {index : Dict (String × String) Nat} {m : Mem} (h : smallOk index m = true) {o : Nat} {a : String} {u : V} (ha : a ∉ backNames)
    (hu : attrAt m o a = some u) : simple u = true ∧ ∀ p, V.ref p ∈ (resolve index u).subs → p < o := by
  unfold attrAt at hu
  split at hu
  · rename_i x hx
    have h1 := List.all_eq_true.1 h o (List.mem_range.2 (List.getElem?_eq_some_iff.1 hx).1)
    simp only [hx] at h1
    have h2 := List.all_eq_true.1 h1 _ (Dict.mem_of_get? hu)
    simp only [Bool.or_eq_true, decide_eq_true_eq, Bool.and_eq_true] at h2
    obtain ⟨h3, h4⟩ := h2.resolve_left ha
    refine ⟨h3, fun p hp => ?_⟩
    simpa using List.all_eq_true.1 h4 _ hp
  · cases hu

theorem smallOk_leads {index : Dict (String × String) Nat} {m : Mem} (h : smallOk index m = true) {o p : Nat} (hl : Leads index m o p) : p < o := by
  obtain ⟨a, u, ha, hu, hp⟩ := hl
  exact (smallOk_spec h ha hu).2 p hp

theorem small_substitutable {env : Env} {index : Dict (String × String) Nat} {m : Mem} {v : V} (h1 : WellTyped env m) (h2 : WellTyped env (resolveMem index m))
    (h3 : Plain v) (h4 : okV env (resolveMem index m) (resolve index v)) (h5 : ∀ o, V.ref o ∈ (resolve index v).subs → o < m.length)
    (h6 : smallOk index m = true) : Substitutable env index m v := by
  refine ⟨h1, h2, h3, h4, fun o ho => ?_, fun o a u _ ha hu => simple_plain (smallOk_spec h6 ha hu).1, fun o _ hl => ?_⟩
  · induction ho with
    | here h => exact h5 _ h
    | next _ hl ih => have := smallOk_leads h6 hl; omega
  · have : ∀ o p, LeadsTo index m o p → p < o := by
      intro o p hl
      induction hl with
      | one hl => exact smallOk_leads h6 hl
      | more hl _ ih => have := smallOk_leads h6 hl; omega
    exact absurd (this o o hl) (by omega)

theorem points_lt {m : Mem} {n : String} {a b : Nat} (h : Points m n a b) : a < m.length := by
  cases h with
  | output h _ _ => exact (List.getElem?_eq_some_iff.1 h).1
  | ingredient h _ _ => exact (List.getElem?_eq_some_iff.1 h).1
  | measurement h _ _ => exact (List.getElem?_eq_some_iff.1 h).1

/-- the hypotheses of C60 are met: a list with a link to an ingredient, which has a link to its process. Both are resolved, and the process gets to know its ingredient. -/
example : Substitutable plainEnv threeIndex givenMem (.list [.link "id" "i", .ref 1, .link "id" "no"]) ∧ Single threeIndex givenMem ∧ TwoWay givenMem ∧
    Reached threeIndex givenMem (.list [.link "id" "i", .ref 1, .link "id" "no"]) 0 ∧
    attrAt givenMem 2 "_process" = some (.link "id" "p") ∧ attrAt givenMem 0 "_ingredients" = some (.list []) := by
  refine ⟨?_, ?_, ?_, ?_, by decide +kernel, by decide +kernel⟩
  · refine small_substitutable (givenMem_built.1.wellTyped plainEnv_sane) (typed_strip (givenMem_built.2.wellTyped plainEnv_sane) (by decide +kernel)) ?_ ?_ ?_ (by decide +kernel)
    · simp [Plain, Plains]
    · simp [resolve, put, puts, meaning, threeIndex, Dict.get?, okV, okVs]
    · intro o ho
      rw [givenMem_eq.2.1]
      simp [resolve, put, puts, meaning, threeIndex, Dict.get?, V.subs, subss] at ho
      omega
  · intro a c b h1 h2
    have hno : ∀ a b, ¬ Points (resolveMem threeIndex givenMem) "_output_material" a b := by
      intro a b h
      obtain ⟨c, there, e1, e2, e3⟩ := points_attr.1 h
      have hlt := points_lt h
      have hlen : (resolveMem threeIndex givenMem).length = 3 := by decide +kernel
      have : ∀ a < 3, ∀ c ∈ (clsAt (resolveMem threeIndex givenMem) a).toList, ∀ e ∈ (backRef c).toList, e.2 = "_output_material" →
          attrAt (resolveMem threeIndex givenMem) a e.1 = some .none := by decide +kernel
      have := this a (by omega) c (by simp [e1]) (there, "_output_material") (by simp [e2]) rfl
      rw [this] at e3
      cases e3
    exact absurd h1 (hno a b)
  · refine built_twoWay plainEnv_sane givenMem_built.1 (fun a c b h1 h2 => ?_)
    have hno : ∀ a b, ¬ Points givenMem "_output_material" a b := by
      intro a b h
      obtain ⟨c, there, e1, e2, e3⟩ := points_attr.1 h
      have hlt := points_lt h
      rw [givenMem_eq.2.1] at hlt
      have : ∀ a < 3, ∀ c ∈ (clsAt givenMem a).toList, ∀ e ∈ (backRef c).toList, e.2 = "_output_material" → attrAt givenMem a e.1 = some .none := by decide +kernel
      have := this a (by omega) c (by simp [e1]) (there, "_output_material") (by simp [e2]) rfl
      rw [this] at e3
      cases e3
    exact absurd h1 (hno a b)
  · have h2 : Reached threeIndex givenMem (.list [.link "id" "i", .ref 1, .link "id" "no"]) 2 :=
      .here (by simp [resolve, put, puts, meaning, threeIndex, Dict.get?, V.subs, subss])
    exact .next h2 ⟨"_process", .link "id" "p", by decide, by decide +kernel, by simp [resolve, put, meaning, threeIndex, Dict.get?, V.subs]⟩

/-- C60, two-way links: if two materials refer to one process by its id, then afterwards both have the process but the process has only the second -/
theorem C60_shared_process_counterexample : ∃ m m', Built plainEnv m ∧ TwoWay m ∧
    objectsInplace plainEnv (fun _ _ _ => false) [(("id", "p"), 0)] 9 m (.list [.ref 1, .ref 2]) = .ok (.list [.ref 1, .ref 2], m') ∧
    attrAt m' 1 "_process" = some (.ref 0) ∧ attrAt m' 2 "_process" = some (.ref 0) ∧ attrAt m' 0 "_output_material" = some (.ref 2) ∧ ¬ TwoWay m' := by
  have h : (match callAll plainEnv [] [(.processRun, [("name", .str "p"), idArg "p"]), (.materialRun, [("name", .str "m"), ("process", .link "id" "p")]),
      (.materialRun, [("name", .str "n"), ("process", .link "id" "p")])] with
    | .ok m => (match objectsInplace plainEnv (fun _ _ _ => false) [(("id", "p"), 0)] 9 m (.list [.ref 1, .ref 2]) with
      | .ok (w, m') => decide (w = .list [.ref 1, .ref 2] ∧ attrAt m' 1 "_process" = some (.ref 0) ∧ attrAt m' 2 "_process" = some (.ref 0) ∧
          attrAt m' 0 "_output_material" = some (.ref 2) ∧ clsAt m' 1 = some .materialRun ∧ m.length = 3) &&
          (List.range 3).all (fun a => (clsAt m a).toList.all (fun c => (backRef c).toList.all (fun e => decide (attrAt m a e.1 = some (.link "id" "p")))))
      | .error _ => false)
    | .error _ => false) = true := by decide +kernel
  split at h
  · rename_i m hm
    split at h
    · rename_i w m' hw
      obtain ⟨g, h5⟩ := (Bool.and_eq_true _ _).mp h
      obtain ⟨rfl, h1, h2, h3, h4, hlen⟩ := of_decide_eq_true g
      have hb := easy_built .nil (by decide +kernel) hm
      refine ⟨m, m', hb, built_twoWay plainEnv_sane hb (fun a c b hp _ => ?_), hw, h1, h2, h3, fun ht => ?_⟩
      · obtain ⟨c, there, e1, e2, e3⟩ := points_attr.1 hp
        have hlt := points_lt hp
        have := of_decide_eq_true (List.all_eq_true.1 (List.all_eq_true.1 (List.all_eq_true.1 h5 a (List.mem_range.2 (by omega))) c (by simp [e1]))
          (there, "_output_material") (by simp [e2]))
        rw [this] at e3
        cases e3
      · have hp : Points m' "_output_material" 1 0 := points_attr.2 ⟨.materialRun, "_process", h4, by decide, h1⟩
        cases ht 0 "_output_material" _ (by decide) h3 with
        | one a e hp' h => cases e; exact absurd (h 1 hp) (by decide)
    · cases h
  · cases h

/-- C60 fails for tuples: after the pair ("id", "p"), which is equal to the link, the link is replaced by the pair. -/
theorem C60_pairs_counterexample (same : Mem → Nat → Nat → Bool) :
    objectsInplace plainEnv same threeIndex 9 givenMem (.list [.tuple [.str "id", .str "p"], .link "id" "p"]) =
    .ok (.list [.tuple [.str "id", .str "p"], .tuple [.str "id", .str "p"]], givenMem) := rfl

end Verif.Inplace
