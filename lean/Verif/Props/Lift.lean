import Verif.Props.Dumps
/-!
# Lemmas for C43: putting entities in place of links

A value that was written with links in place of entities is read with entities in place of links again. Its setters accept it, since
they accept the original value with the entities renamed.
-/

set_option linter.unusedSimpArgs false
set_option linter.unusedVariables false
set_option linter.unusedSectionVars false

namespace Verif.Json
open Verif.Py Verif.Value Verif.Schema Verif.Substitute

/-! ## Renaming twice -/

theorem tr_mkDict (f : Nat → V) (g : String → String → V) (fs : List (String × V)) : tr f g (mkDict fs) = mkDict (sortFields (onSnd (tr f g) fs)) := by
  have h : strings (fs.map (fun f => V.str f.1)) = some (fs.map Prod.fst) := mkDict_keys fs
  simp only [mkDict, tr, sortDict, h]
  rw [trs_eq, ← onSnd_zip, zip_fst_snd]

theorem nf_pointerLike {v : V} (h : pointerLike v) : nf v = v := by
  cases v <;> simp [pointerLike] at h <;> simp [nf, cn, tr]

section
variable {f : Nat → V} {g : String → String → V}
mutual
/-- renaming goes with normal forms -/
theorem tr_nf (v : V) (hw : wf v) (hf : ∀ o, V.ref o ∈ v.subs → pointerLike (f o)) (hg : ∀ s i, V.link s i ∈ v.subs → pointerLike (g s i)) :
    nf (tr f g v) = tr f g (nf v) := by
  cases v with
  | list l =>
    simp only [wf] at hw
    rw [nf_list]
    simp only [tr, trs_eq]
    rw [nf_list, trs_nf l hw (fun o h => hf o (by simp [V.subs, h])) (fun s i h => hg s i (by simp [V.subs, h]))]
  | tuple l =>
    simp only [wf] at hw
    rw [nf_tuple]
    simp only [tr, trs_eq]
    rw [nf_list, trs_nf l hw (fun o h => hf o (by simp [V.subs, h])) (fun s i h => hg s i (by simp [V.subs, h]))]
  | dict ks vs =>
    simp only [wf] at hw
    obtain ⟨⟨_, names, hs, _⟩, hw⟩ := hw
    rw [nf_dict hs]
    simp only [tr]
    rw [nf_sortDict hs, trs_eq, trs_nf vs hw (fun o h => hf o (by simp [V.subs, h])) (fun s i h => hg s i (by simp [V.subs, h]))]
    rw [tr_mkDict, ← onSnd_sort, sortFields_idem, onSnd_zip]
  | obj t ns vs =>
    simp only [wf] at hw
    rw [nf_obj]
    simp only [tr, trs_eq]
    rw [nf_obj, trs_nf vs hw.2 (fun o h => hf o (by simp [V.subs, h])) (fun s i h => hg s i (by simp [V.subs, h]))]
  | ref o =>
    have := nf_pointerLike (hf o (by simp [V.subs]))
    have e : nf (V.ref o) = .ref o := nf_pointerLike trivial
    rw [e]
    simp only [tr]
    exact this
  | link s i =>
    have := nf_pointerLike (hg s i (by simp [V.subs]))
    have e : nf (V.link s i) = .link s i := nf_pointerLike trivial
    rw [e]
    simp only [tr]
    exact this
  | _ => simp [nf, cn, tr]
termination_by structural v
theorem trs_nf (l : List V) (hw : wfs l) (hf : ∀ o, V.ref o ∈ subss l → pointerLike (f o)) (hg : ∀ s i, V.link s i ∈ subss l → pointerLike (g s i)) :
    (l.map (tr f g)).map nf = (l.map nf).map (tr f g) := by
  cases l with
  | nil => rfl
  | cons v vs =>
    simp only [wfs] at hw
    simp only [List.map_cons]
    rw [tr_nf v hw.1 (fun o h => hf o (by simp [subss, h])) (fun s i h => hg s i (by simp [subss, h])),
      trs_nf vs hw.2 (fun o h => hf o (by simp [subss, h])) (fun s i h => hg s i (by simp [subss, h]))]
termination_by structural l
end
end

section
variable {f f' : Nat → V} {g g' : String → String → V}
mutual
/-- renaming twice, told by where each entity and link ends up -/
theorem tr_tr {F : Nat → V} {G : String → String → V} (v : V) (hw : wf v) (hf : ∀ o, V.ref o ∈ v.subs → tr f' g' (f o) = F o)
    (hg : ∀ s i, V.link s i ∈ v.subs → tr f' g' (g s i) = G s i) : tr f' g' (tr f g v) = tr F G v := by
  cases v with
  | list l =>
    simp only [wf] at hw
    simp only [tr, trs_eq]
    rw [trs_tr l hw (fun o h => hf o (by simp [V.subs, h])) (fun s i h => hg s i (by simp [V.subs, h]))]
  | tuple l =>
    simp only [wf] at hw
    simp only [tr, trs_eq]
    rw [trs_tr l hw (fun o h => hf o (by simp [V.subs, h])) (fun s i h => hg s i (by simp [V.subs, h]))]
  | dict ks vs =>
    simp only [wf] at hw
    obtain ⟨⟨_, names, hs, _⟩, hw⟩ := hw
    simp only [tr, sortDict, hs]
    rw [tr_mkDict, ← onSnd_sort, sortFields_idem, onSnd_zip, trs_eq, trs_eq,
      trs_tr vs hw (fun o h => hf o (by simp [V.subs, h])) (fun s i h => hg s i (by simp [V.subs, h]))]
  | obj t ns vs =>
    simp only [wf] at hw
    simp only [tr, trs_eq]
    rw [trs_tr vs hw.2 (fun o h => hf o (by simp [V.subs, h])) (fun s i h => hg s i (by simp [V.subs, h]))]
  | ref o => simp only [tr]; exact hf o (by simp [V.subs])
  | link s i => simp only [tr]; exact hg s i (by simp [V.subs])
  | _ => simp [tr]
termination_by structural v
theorem trs_tr {F : Nat → V} {G : String → String → V} (l : List V) (hw : wfs l) (hf : ∀ o, V.ref o ∈ subss l → tr f' g' (f o) = F o)
    (hg : ∀ s i, V.link s i ∈ subss l → tr f' g' (g s i) = G s i) : (l.map (tr f g)).map (tr f' g') = l.map (tr F G) := by
  cases l with
  | nil => rfl
  | cons v vs =>
    simp only [wfs] at hw
    simp only [List.map_cons]
    rw [tr_tr v hw.1 (fun o h => hf o (by simp [subss, h])) (fun s i h => hg s i (by simp [subss, h])),
      trs_tr vs hw.2 (fun o h => hf o (by simp [subss, h])) (fun s i h => hg s i (by simp [subss, h]))]
termination_by structural l
end
end

/-- Written with links `f` for the entities, read with `g` for the links. -/
theorem nf_back {f : Nat → V} {g : String → String → V} {F : Nat → V} {v w : V} (hv : wf v) (hw : wf w) (hg : ∀ s i, pointerLike (g s i))
    (hf : ∀ o, V.ref o ∈ v.subs → pointerLike (f o)) (h : nf w = nf (tr f .link v)) (hF : ∀ o, V.ref o ∈ v.subs → tr .ref g (f o) = F o)
    (hG : ∀ s i, V.link s i ∈ v.subs → g s i = .link s i) : nf (tr .ref g w) = nf (tr F .link v) := by
  have hwf : wf (tr f .link v) := by
    apply wf_tr f .link v hv
    · intro o ho
      have := hf o ho
      revert this
      cases f o <;> simp [pointerLike, wf]
    · simp [wf]
  rw [tr_nf w hw (by simp [pointerLike]) (fun s i _ => hg s i), h, ← tr_nf _ hwf (by simp [pointerLike]) (fun s i _ => hg s i)]
  rw [tr_tr v hv hF (fun s i h => by simp only [tr]; exact hG s i h)]

/-! ## The setters -/

/-- what a setter other than those of pointers and ranges stores as it is, it also does with other entities and links inside -/
theorem conv_data (env : Env) (m m' : Mem) (k : Kind) (hk : (∀ cs, k ≠ .target cs) ∧ ∀ c, k ≠ .ranges c) (f : Nat → V) (g : String → String → V) (v : V)
    (hw : wf v) (h : conv env m k v = .ok v) : conv env m' k (tr f g v) = .ok (tr f g v) := by
  by_cases hp : plainKind k = true
  · rw [plain_tr env m k hp f g v v h]
    cases k <;> simp [plainKind] at hp <;> exact h
  cases k <;> simp [plainKind] at hp <;> simp only [conv] at h ⊢
  · cases v with
    | none => rfl
    | str s => simp [convProbabilities] at h
    | dict ks vs =>
      simp only [wf] at hw
      obtain ⟨⟨hl, names, hs, _⟩, _⟩ := hw
      simp only [convProbabilities] at h
      split at h
      · rename_i q hq
        split at h
        · cases h
        · rename_i hle
          simp only [tr, sortDict, hs, mkDict, convProbabilities]
          have hvs : trs f g vs = vs := trs_scalar f g (total_scalar hq)
          have hl' : names.length = vs.length := by rw [← hl, strings_eq hs]; simp
          have e1 : total ((sortFields (names.zip (trs f g vs))).map Prod.snd) = some q := by
            rw [total_perm ((sortFields_perm _).map Prod.snd), List.map_snd_zip (by rw [hvs]; omega), hvs, hq]
          rw [e1]
          simp only
          rw [if_neg hle, if_pos]
          simp [isStr]
      · cases h
    | _ => simp [convProbabilities] at h
  · cases v with
    | none => simp [convQuantities] at h
    | dict ks vs =>
      simp only [wf] at hw
      obtain ⟨⟨hl, names, hs, _⟩, _⟩ := hw
      simp [tr, sortDict, hs, mkDict, convQuantities]
    | list l => cases l <;> simp [convQuantities] at h
    | _ => simp [convQuantities] at h
  · unfold convObj at h
    split at h
    · cases h
    · split at h
      · rename_i hn ht
        have ht' := isTyp_tr f g ht
        unfold convObj
        rw [if_neg, if_pos ht']
        intro e
        rw [e] at ht'
        simp [isTyp] at ht'
      · cases h
  · unfold convOptObj at h
    split at h
    · rename_i e
      subst e; rfl
    · split at h
      · rename_i hn ht
        have ht' := isTyp_tr f g ht
        unfold convOptObj
        rw [if_neg, if_pos ht']
        intro e
        rw [e] at ht'
        simp [isTyp] at ht'
      · cases h
  · unfold convList at h
    split at h
    · rename_i ts ht
      injection h with h
      generalize members v = l at h ht
      subst h
      have hall : (trs f g l).all (isTyp ts) = true := by
        rw [trs_eq]
        simp only [List.all_map, List.all_eq_true, Function.comp_apply]
        intro x hx
        exact isTyp_tr f g (List.all_eq_true.1 ht x hx)
      have e : tr f g (.list l) = .list (trs f g l) := by simp only [tr]
      rw [e]
      unfold convList
      have e' : members (.list (trs f g l)) = trs f g l := rfl
      rw [e', if_pos hall]
    · cases h
  · rename_i cs
    exact absurd rfl (hk.1 cs)
  · rename_i c
    exact absurd rfl (hk.2 c)

theorem pair_lift {env : Env} {m m' : Mem} {g : String → String → V} (hg : ∀ s i, pointerLike (g s i)) {p p' : V} (hn : noRef p) (ho : okV env m p)
    (ht' : noTuple p') (ho' : okV env m' p') (hp : PairOk env m p) (hp' : PairOk env m' p') (h : nf (tr .ref g p) = nf p') : tr .ref g p = p' := by
  obtain ⟨a, b, rfl, ha, hb⟩ := hp
  obtain ⟨a', b', rfl, ha', hb'⟩ := hp'
  simp only [tr, trs] at h ⊢
  rw [nf_list, nf_list] at h
  simp only [List.map_cons, List.map_nil, V.list.injEq, List.cons.injEq, and_true] at h
  simp only [noRef, noRefs, okV, okVs, noTuple, noTuples] at hn ho ht' ho'
  have ea : tr .ref g a = a' := by
    rcases ha with ha | ha
    · cases a <;> simp [isLink] at ha
      simp only [tr] at h ⊢
      exact (nf_pointer (hg _ _) h.1.symm).symm
    · cases a <;> simp [isCls] at ha
      simp [noRef] at hn
  have eb : tr .ref g b = b' := by
    rcases hb with rfl | ⟨hb, _⟩
    · simp only [tr] at h ⊢
      exact (nf_none.1 (by rw [← h.2]; simp [nf, cn, tr])).symm
    · rw [tr_bounds env m _ _ b hb ho.2.1] at h ⊢
      exact (bounds_eq env m m' b b' hb ho.2.1 ho'.2.1 ht'.2.1 h.2.symm).symm
  rw [ea, eb]

/-- what a setter stores as it is with links inside, it also does with entities in place of links, if they are of the right classes -/
theorem conv_lift (env : Env) (m m' : Mem) (k : Kind) (hr : rangeOk k) (g : String → String → V) (hg : ∀ s i, pointerLike (g s i)) (w v' : V)
    (hw : Clean env m w) (ht' : noTuple v') (ho' : okV env m' v') (h : nf (tr .ref g w) = nf v') (hc : conv env m k w = .ok w)
    (hc' : conv env m' k v' = .ok v') : conv env m' k (tr .ref g w) = .ok (tr .ref g w) := by
  by_cases hk : (∀ cs, k ≠ .target cs) ∧ ∀ c, k ≠ .ranges c
  · exact conv_data env m m' k hk .ref g w hw.wf hc
  cases k with
  | target cs =>
    simp only [conv, convTarget] at hc hc' ⊢
    split at hc
    · rename_i hcase
      rcases hcase with rfl | hl | hcl
      · simp [tr]
      · cases w <;> simp [isLink] at hl
        simp only [tr] at h ⊢
        rw [nf_pointer (hg _ _) h.symm] at hc'
        exact hc'
      · cases w <;> simp [isCls] at hcl
        have := hw.noRef
        simp [noRef] at this
    · cases hc
  | ranges c =>
    obtain ⟨l, rfl, hl⟩ := convRanges_out env m c hr w w hc
    obtain ⟨l', rfl, hl'⟩ := convRanges_out env m' c hr v' v' hc'
    simp only [tr, trs_eq] at h ⊢
    rw [nf_list, nf_list] at h
    simp only [V.list.injEq] at h
    have hwr := hw.noRef
    have hwo := hw.ok
    simp only [noRef, okV, noTuple] at hwr hwo ht' ho'
    rw [noRefs_iff] at hwr
    rw [okVs_iff] at hwo ho'
    rw [noTuples_iff] at ht'
    have hlen : (l.map (tr .ref g)).length = l'.length := by simpa using congrArg List.length h
    have : l.map (tr .ref g) = l' := by
      apply List.ext_getElem hlen
      intro i h1 h2
      have hi : i < l.length := by simpa using h1
      have e := map_nth h i h1 h2
      rw [List.getElem_map] at e ⊢
      exact pair_lift hg (hwr _ (List.getElem_mem hi)) (hwo _ (List.getElem_mem hi)) (ht' _ (List.getElem_mem h2)) (ho' _ (List.getElem_mem h2))
        (hl _ (List.getElem_mem hi)) (hl' _ (List.getElem_mem h2)) e
    rw [this]
    exact hc'
  | _ => exact absurd ⟨by simp, by simp⟩ hk

theorem nf_dict_inv {v : V} {fs : List (String × V)} (hv : wf v) (h : nf v = mkDict fs) :
    ∃ ks vs names, v = .dict ks vs ∧ strings ks = some names ∧ fs = sortFields (names.zip (vs.map nf)) := by
  cases v with
  | dict ks vs =>
    simp only [wf] at hv
    obtain ⟨⟨_, names, hs, _⟩, _⟩ := hv
    refine ⟨ks, vs, names, rfl, hs, ?_⟩
    rw [nf_dict hs] at h
    have e : ∀ fs : List (String × V), (fs.map Prod.fst).zip (fs.map Prod.snd) = fs := zip_fst_snd
    simp only [mkDict, V.dict.injEq] at h
    have h1 : (sortFields (names.zip (vs.map nf))).map Prod.fst = fs.map Prod.fst := by
      have hh := h.1
      have : ∀ gs : List (String × V), gs.map (fun f => V.str f.1) = (gs.map Prod.fst).map V.str := by simp
      rw [this, this] at hh
      have inj : ∀ a b : List String, a.map V.str = b.map V.str → a = b := by
        intro a
        induction a with
        | nil => intro b h; cases b <;> simp at h ⊢
        | cons x a ih =>
          intro b h
          cases b with
          | nil => simp at h
          | cons y b => simp at h; simp [h.1, ih b h.2]
      exact inj _ _ hh
    rw [← e fs, ← h1, ← h.2, e]
  | _ => simp [nf, cn, tr, mkDict] at h

mutual
theorem okV_lift (env : Env) (m m' : Mem) (g : String → String → V) (hg : ∀ s i, pointerLike (g s i)) (w : V) (hw : wf w) (hwt : noTuple w) (hwr : noRef w)
    (hwo : okV env m w) (v' : V) (hw' : wf v') (ht' : noTuple v') (ho' : okV env m' v') (h : nf (tr .ref g w) = nf v') : okV env m' (tr .ref g w) := by
  cases w with
  | list l =>
    simp only [wf, noTuple, noRef, okV] at hw hwt hwr hwo
    simp only [tr, okV]
    simp only [tr, trs_eq] at h
    rw [nf_list] at h
    obtain ⟨l', rfl, hl'⟩ := nf_list_inv ht' h.symm
    simp only [wf, noTuple, okV] at hw' ht' ho'
    rw [wfs_iff] at hw'
    rw [noTuples_iff] at ht'
    rw [okVs_iff] at ho'
    refine okVs_lift env m m' g hg l hw hwt hwr hwo ?_
    intro w hwl
    have : nf (tr .ref g w) ∈ l'.map nf := by rw [hl']; simp; exact ⟨w, hwl, rfl⟩
    obtain ⟨v', hv', e⟩ := List.mem_map.1 this
    exact ⟨v', hw' v' hv', ht' v' hv', ho' v' hv', e.symm⟩
  | tuple l => simp [noTuple] at hwt
  | dict ks vs =>
    simp only [wf, noTuple, noRef, okV] at hw hwt hwr hwo
    obtain ⟨⟨hl, names, hs, _⟩, hw⟩ := hw
    simp only [tr] at h ⊢
    rw [nf_sortDict hs, trs_eq] at h
    obtain ⟨ks', vs', names', rfl, hs', hfs⟩ := nf_dict_inv hw' h.symm
    simp only [wf, noTuple, okV] at hw' ht' ho'
    obtain ⟨⟨hl', _⟩, hw'⟩ := hw'
    rw [wfs_iff] at hw'
    rw [noTuples_iff] at ht'
    rw [okVs_iff] at ho'
    have ih := okVs_lift env m m' g hg vs hw hwt hwr hwo (by
      intro w hwl
      have hln : names.length = vs.length := by rw [← hl, strings_eq hs]; simp
      have hln' : names'.length = vs'.length := by rw [← hl', strings_eq hs']; simp
      have p1 := (sortFields_perm (names.zip ((vs.map (tr .ref g)).map nf))).map Prod.snd
      have p2 := (sortFields_perm (names'.zip (vs'.map nf))).map Prod.snd
      rw [← hfs] at p2
      rw [List.map_snd_zip (by simp; omega)] at p1 p2
      have : nf (tr .ref g w) ∈ vs'.map nf := (p2.symm.trans p1).mem_iff.2 (by simp; exact ⟨w, hwl, rfl⟩)
      obtain ⟨v', hv', e⟩ := List.mem_map.1 this
      exact ⟨v', hw' v' hv', ht' v' hv', ho' v' hv', e.symm⟩)
    simp only [sortDict, hs, mkDict, okV]
    rw [okVs_iff] at ih ⊢
    intro w hw
    have := ((sortFields_perm (names.zip (trs .ref g vs))).map Prod.snd).mem_iff.1 hw
    obtain ⟨p, hp, rfl⟩ := List.mem_map.1 this
    exact ih _ (List.of_mem_zip (a := p.1) (b := p.2) hp).2
  | obj t ns vs =>
    simp only [wf, noTuple, noRef, okV] at hw hwt hwr hwo
    simp only [tr, trs_eq] at h
    rw [nf_obj] at h
    obtain ⟨vs', rfl, hl'⟩ := nf_obj_inv h.symm
    simp only [wf, noTuple, okV] at hw' ht' ho'
    obtain ⟨hst', ho'⟩ := ho'
    obtain ⟨hst, hwo⟩ := hwo
    obtain ⟨hl, hw⟩ := hw
    obtain ⟨_, hw'⟩ := hw'
    simp only [tr, okV]
    have hst0 := hst
    have hst0' := hst'
    have hw0 := hw
    have hwt0 := hwt
    have hwr0 := hwr
    have hwo0 := hwo
    obtain ⟨c, hc, hns, hlen, hcv, hord⟩ := hst0
    rw [wfs_iff] at hw' hw
    rw [noTuples_iff] at ht' hwt
    rw [okVs_iff] at ho' hwo
    rw [noRefs_iff] at hwr
    have hlv : vs'.length = vs.length := by simpa using congrArg List.length hl'
    refine ⟨⟨c, hc, hns, by rw [trs_eq]; simpa using hlen, ?_, ?_⟩, ?_⟩
    · intro p hp
      rw [trs_eq] at hp
      obtain ⟨i, hi, rfl⟩ := List.getElem_of_mem hp
      simp only [List.length_zip, List.length_map] at hi
      simp only [List.getElem_zip, List.getElem_map]
      have i1 : i < vs.length := by omega
      have i2 : i < vs'.length := by omega
      have e := map_nth hl' i i2 (by simpa using i1)
      rw [List.getElem_map] at e
      exact conv_lift env m m' _ (table_kinds t c hc _ (List.getElem_mem _)).1 g hg vs[i] vs'[i]
        ⟨hw _ (List.getElem_mem _), hwo _ (List.getElem_mem _), hwt _ (List.getElem_mem _), hwr _ (List.getElem_mem _)⟩
        (ht' _ (List.getElem_mem _)) (ho' _ (List.getElem_mem _)) e.symm (hst.nth hc i i1 (by omega)) (hst'.nth hc i i2 (by omega))
    · obtain ⟨c', hc', _, _, _, hord'⟩ := hst0'
      rw [hc] at hc'
      cases hc'
      rw [trs_eq, checkOrder_nf c (ns := ns) hl'.symm]
      exact hord'
    · refine okVs_lift env m m' g hg vs hw0 hwt0 hwr0 hwo0 ?_
      intro w hwl
      have : nf (tr .ref g w) ∈ vs'.map nf := by rw [hl']; simp; exact ⟨w, hwl, rfl⟩
      obtain ⟨v', hv', e⟩ := List.mem_map.1 this
      exact ⟨v', hw' v' hv', ht' v' hv', ho' v' hv', e.symm⟩
  | link s i =>
    simp only [tr]
    have := hg s i
    revert this
    cases g s i <;> simp [pointerLike, okV]
  | ref o => simp [noRef] at hwr
  | _ => simp [tr, okV]
termination_by structural w
theorem okVs_lift (env : Env) (m m' : Mem) (g : String → String → V) (hg : ∀ s i, pointerLike (g s i)) (l : List V) (hw : wfs l) (hwt : noTuples l)
    (hwr : noRefs l) (hwo : okVs env m l) (h : ∀ w ∈ l, ∃ v', wf v' ∧ noTuple v' ∧ okV env m' v' ∧ nf (tr .ref g w) = nf v') :
    okVs env m' (trs .ref g l) := by
  cases l with
  | nil => simp [trs, okVs]
  | cons v vs =>
    simp only [wfs, noTuples, noRefs, okVs] at hw hwt hwr hwo
    simp only [trs, okVs]
    have h0 := List.forall_mem_cons.1 h
    obtain ⟨v', a1, a2, a3, a4⟩ := h0.1
    exact ⟨okV_lift env m m' g hg v hw.1 hwt.1 hwr.1 hwo.1 v' a1 a2 a3 a4, okVs_lift env m m' g hg vs hw.2 hwt.2 hwr.2 hwo.2 h0.2⟩
termination_by structural l
end

end Verif.Json
