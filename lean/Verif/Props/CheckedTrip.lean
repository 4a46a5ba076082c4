import Verif.Props.Checked
/-!
# C69: loading what was written at a validation level
-/

set_option linter.unusedSimpArgs false
set_option linter.unusedVariables false
set_option linter.unusedSectionVars false

namespace Verif.Checked
open Verif.Py Verif.Value Verif.Schema Verif.Json Verif.Level Verif.Substitute Verif.Traverse

/-! ## The objects in a value -/

mutual
/-- all objects in the value satisfy `G` -/
def PassV (G : V → Prop) : V → Prop
  | .list l => PassVs G l
  | .tuple l => PassVs G l
  | .dict _ vs => PassVs G vs
  | .obj t ns vs => G (.obj t ns vs) ∧ PassVs G vs
  | _ => True
def PassVs (G : V → Prop) : List V → Prop
  | [] => True
  | v :: vs => PassV G v ∧ PassVs G vs
end

theorem passVs_iff {G : V → Prop} {l : List V} : PassVs G l ↔ ∀ v ∈ l, PassV G v := by
  induction l with
  | nil => simp [PassVs]
  | cons v l ih => simp [PassVs, ih]

theorem passV_pointer {G : V → Prop} {v : V} (h : pointerLike v) : PassV G v := by
  cases v <;> simp [pointerLike] at h <;> simp [PassV]

/-! ## Reading a value -/

section
variable {J : Judge} {l : Level} {env : Env} {st : Loading} {f T : Nat → V}

mutual
/-- reading what was written for a value runs the checks of the objects in it -/
theorem calls_tree (v : V) (hw : wf v) (hn : noRef v) (ho : okV env st.mem (tr f (readLink env true st) v)) :
    Calls (loadAndIndex env true) (Passes J l) (tree T v) st ↔ PassV (fun u => guard J l st.mem u = .ok ()) (tr f (readLink env true st) v) := by
  cases v with
  | list l' =>
    simp only [wf, noRef, tr, okV, trs_eq] at hw hn ho
    simp only [tree, Calls, tr, PassV, trees_eq, trs_eq]
    rw [callsL_iff (by
      intro u hu
      obtain ⟨w, hw', rfl⟩ := List.mem_map.1 hu
      exact ⟨_, decs_all env true st f T l' hw hn (by rw [trs_eq]; exact ho) w hw'⟩), passVs_iff]
    have ih := calls_trees l' hw hn (by rw [trs_eq]; exact ho)
    simp only [List.mem_map, forall_exists_index, and_imp, forall_apply_eq_imp_iff₂]
    exact ⟨fun h u hu => (ih u hu).1 (h u hu), fun h u hu => (ih u hu).2 (h u hu)⟩
  | tuple l' =>
    simp only [wf, noRef, tr, okV, trs_eq] at hw hn ho
    simp only [tree, Calls, tr, PassV, trees_eq, trs_eq]
    rw [callsL_iff (by
      intro u hu
      obtain ⟨w, hw', rfl⟩ := List.mem_map.1 hu
      exact ⟨_, decs_all env true st f T l' hw hn (by rw [trs_eq]; exact ho) w hw'⟩), passVs_iff]
    have ih := calls_trees l' hw hn (by rw [trs_eq]; exact ho)
    simp only [List.mem_map, forall_exists_index, and_imp, forall_apply_eq_imp_iff₂]
    exact ⟨fun h u hu => (ih u hu).1 (h u hu), fun h u hu => (ih u hu).2 (h u hu)⟩
  | dict ks vs =>
    have hw0 := hw
    have hn0 := hn
    have ho0 := ho
    simp only [wf, noRef] at hw hn
    obtain ⟨⟨hl, names, hs, hnd, ht⟩, hw⟩ := hw
    simp only [tr, sortDict, hs] at ho
    have hl' : names.length = vs.length := by rw [← hl, strings_eq hs]; simp
    have hvs : okVs env st.mem (trs f (readLink env true st) vs) := by
      simp only [mkDict, okV] at ho
      rw [okVs_iff] at ho ⊢
      intro v hv
      apply ho v
      have p := (sortFields_perm (names.zip (trs f (readLink env true st) vs))).map Prod.snd
      rw [p.mem_iff, List.map_snd_zip]
      · exact hv
      · rw [trs_eq]; simp [hl']
    have ih := calls_trees vs hw hn hvs
    have hd := decs_all env true st f T vs hw hn hvs
    have hin : ∀ e ∈ sortFields (names.zip vs), e.2 ∈ vs := fun e he => (List.of_mem_zip ((sortFields_perm _).mem_iff.1 he)).2
    simp only [tree, sortDict, hs, tr]
    rw [trees_eq, trs_eq, ← onSnd_zip, onSnd_sort, calls_mkDict (tree T) (tr f (readLink env true st)) (fun e he => hd _ (hin e he))]
    have hnt : Dict.get? (onSnd (tr f (readLink env true st)) (sortFields (names.zip vs))) "type" = none := by
      rw [Dict.get?_eq_none_iff]
      unfold Dict.keys
      rw [onSnd_fst, ((sortFields_perm _).map Prod.fst).mem_iff, List.map_fst_zip]
      · exact ht
      · omega
    have h2 : ∀ r s', loadAndIndex env true (onSnd (tr f (readLink env true st)) (sortFields (names.zip vs))) st = .ok (r, s') →
        Passes J l (onSnd (tr f (readLink env true st)) (sortFields (names.zip vs))) r s' := by
      intro r s' e
      simp only [loadAndIndex, hnt, Except.ok.injEq, Prod.mk.injEq] at e
      obtain ⟨rfl, rfl⟩ := e
      intro _
      rfl
    have hm : ∀ u, u ∈ (sortFields (onSnd (tr f (readLink env true st)) (names.zip vs))).map Prod.snd ↔ ∃ v ∈ vs, tr f (readLink env true st) v = u := by
      intro u
      rw [((sortFields_perm _).map Prod.snd).mem_iff, onSnd_snd, List.map_snd_zip (by omega), List.mem_map]
    simp only [onSnd_zip] at hm
    simp only [mkDict, PassV]
    rw [passVs_iff]
    constructor
    · rintro ⟨h1, _⟩ u hu
      obtain ⟨v, hv, rfl⟩ := (hm u).1 hu
      have : v ∈ (sortFields (names.zip vs)).map Prod.snd := by
        rw [((sortFields_perm _).map Prod.snd).mem_iff, List.map_snd_zip (by omega)]
        exact hv
      obtain ⟨e, he, rfl⟩ := List.mem_map.1 this
      exact (ih _ hv).1 (h1 e he)
    · intro h
      exact ⟨fun e he => (ih _ (hin e he)).2 (h _ ((hm _).2 ⟨e.2, hin e he, rfl⟩)), h2⟩
  | obj t ns vs =>
    have hdec := dec_tree env true st f T (.obj t ns vs) hw hn ho
    simp only [wf, noRef] at hw hn
    obtain ⟨hl, hw⟩ := hw
    simp only [tr, okV] at ho
    obtain ⟨hst, hvs⟩ := ho
    have ih := calls_trees vs hw hn hvs
    have hd := decs_all env true st f T vs hw hn hvs
    obtain ⟨c, hc, hns, hlen, _⟩ := hst
    have hnn := table_names t c hc
    rw [← hns] at hnn
    have hne : t ≠ "link_by_uid" := by
      rintro rfl
      exact table_not_link c hc
    have e1 : (("type", V.str t) :: ns.zip (trees T vs)) = onSnd (tree T) (("type", V.str t) :: ns.zip vs) := by
      rw [trees_eq, ← onSnd_zip]; simp [onSnd, tree]
    have hin : ∀ e ∈ sortFields (("type", V.str t) :: ns.zip vs), e.2 = .str t ∨ e.2 ∈ vs := by
      intro e he
      have := (sortFields_perm _).mem_iff.1 he
      rcases List.mem_cons.1 this with rfl | h
      · exact .inl rfl
      · exact .inr (List.of_mem_zip h).2
    have hd' : ∀ e ∈ sortFields (("type", V.str t) :: ns.zip vs), dec (loadAndIndex env true) (tree T e.2) st = .ok (tr f (readLink env true st) e.2, st) := by
      intro e he
      rcases hin e he with h | h
      · rw [h]; simp [tree, tr, dec]
      · exact hd _ h
    simp only [tree, tr] at hdec ⊢
    rw [e1, onSnd_sort] at hdec ⊢
    rw [dec_mkDict (loadAndIndex env true) st (tree T) (tr f (readLink env true st)) _ hd'] at hdec
    rw [calls_mkDict (tree T) (tr f (readLink env true st)) hd']
    have hty : Dict.get? (onSnd (tr f (readLink env true st)) (sortFields (("type", V.str t) :: ns.zip vs))) "type" ≠ some (.str "link_by_uid") := by
      have hnd : ((("type", V.str t) :: ns.zip vs).map Prod.fst).Nodup := by
        rw [List.map_cons, List.map_fst_zip (by omega)]
        exact List.nodup_cons.2 ⟨hnn.2.1, hnn.1⟩
      have hp := sortFields_perm (("type", V.str t) :: ns.zip vs)
      rw [get?_onSnd, get?_perm hp ((hp.map Prod.fst).nodup_iff.2 hnd)]
      simp [Dict.get?, tr, hne]
    simp only [PassV]
    rw [trs_eq, passVs_iff]
    simp only [List.mem_map, forall_exists_index, and_imp, forall_apply_eq_imp_iff₂]
    constructor
    · rintro ⟨h1, h2⟩
      refine ⟨by have := h2 _ _ hdec hty; rwa [trs_eq] at this, ?_⟩
      intro v hv
      have : v ∈ (sortFields (("type", V.str t) :: ns.zip vs)).map Prod.snd := by
        rw [((sortFields_perm _).map Prod.snd).mem_iff, List.map_cons, List.map_snd_zip (by omega)]
        exact List.mem_cons_of_mem _ hv
      obtain ⟨e, he, rfl⟩ := List.mem_map.1 this
      exact (ih _ hv).1 (h1 e he)
    · rintro ⟨h1, h2⟩
      refine ⟨?_, ?_⟩
      · intro e he
        rcases hin e he with h | h
        · rw [h]; simp [tree, Calls]
        · exact (ih _ h).2 (h2 _ h)
      · intro r s' e
        rw [hdec] at e
        simp only [Except.ok.injEq, Prod.mk.injEq] at e
        obtain ⟨rfl, rfl⟩ := e
        intro _
        rw [trs_eq]
        exact h1
  | ref o => simp [noRef] at hn
  | link s i =>
    have h1 : PassV (fun u => guard J l st.mem u = .ok ()) (tr f (readLink env true st) (.link s i)) := passV_pointer (pointerLike_readLink env st s i)
    simp only [h1, iff_true]
    simp only [tree, mkDict, Calls]
    refine ⟨by simp [CallsL, Calls], ?_⟩
    intro names vs' s' r s'' e1 e2 e3
    simp [strings] at e1
    subst e1
    simp [decs, dec] at e2
    obtain ⟨rfl, rfl⟩ := e2
    intro h
    simp [Dict.get?] at h
  | _ => simp [tree, tr, Calls, PassV]
termination_by structural v
theorem calls_trees (vs : List V) (hw : wfs vs) (hn : noRefs vs) (ho : okVs env st.mem (trs f (readLink env true st) vs)) :
    ∀ v ∈ vs, Calls (loadAndIndex env true) (Passes J l) (tree T v) st ↔ PassV (fun u => guard J l st.mem u = .ok ()) (tr f (readLink env true st) v) := by
  cases vs with
  | nil => simp
  | cons v vs =>
    simp only [wfs, noRefs, trs, okVs] at hw hn ho
    intro w hmem
    rcases List.mem_cons.1 hmem with h | h
    · rw [h]; exact calls_tree v hw.1 hn.1 ho.1
    · exact calls_trees vs hw.2 hn.2 ho.2 w h
termination_by structural vs
end

end

end Verif.Checked
