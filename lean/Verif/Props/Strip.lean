import Verif.Props.Sim
import Verif.Model.Substitute
/-!
# Lemmas on `substitute_links`
-/

set_option linter.unusedSimpArgs false
set_option linter.unusedVariables false
set_option linter.unusedSectionVars false

namespace Verif.Json
open Verif.Py Verif.Value Verif.Schema

/-! ## Records -/

/-- writing the dictionary of a record whose values have no entities in them -/
theorem enc_record (E : Nat → Except PyErr V) (T : Nat → V) (t : String) (fs : List (String × V)) (hw : ∀ e ∈ fs, wf e.2)
    (hr : ∀ e ∈ fs, noRef e.2) :
    enc E (mkDict (("type", .str t) :: fs)) = .ok (mkDict (sortFields (("type", .str t) :: onSnd (tree T) fs))) := by
  have h1 : encs E (fs.map Prod.snd) = .ok (trees T (fs.map Prod.snd)) := by
    apply encs_trees
    · rw [wfs_iff]; simp only [List.mem_map]; rintro v ⟨e, he, rfl⟩; exact hw e he
    · rw [noRefs_iff]; simp only [List.mem_map]; rintro v ⟨e, he, rfl⟩; exact hr e he
  have h2 : strings ((("type", V.str t) :: fs).map (fun f => V.str f.1)) = some ((("type", V.str t) :: fs).map Prod.fst) := mkDict_keys _
  have h3 : (fs.map Prod.fst).zip (trees T (fs.map Prod.snd)) = onSnd (tree T) fs := by
    rw [trees_eq, ← onSnd_zip, zip_fst_snd]
  simp only [mkDict, enc]
  rw [h2]
  simp only [List.map_cons, encs, enc, h1, List.zip_cons_cons, h3]

/-- reading it -/
theorem dec_record (env : Env) (sub : Bool) (st : Loading) (f T : Nat → V) (t : String) (fs : List (String × V))
    (hn : (fs.map Prod.fst).Nodup) (h1 : "type" ∉ fs.map Prod.fst) (h2 : "self" ∉ fs.map Prod.fst) (hw : ∀ e ∈ fs, wf e.2)
    (hr : ∀ e ∈ fs, noRef e.2) (ho : ∀ e ∈ fs, okV env st.mem (tr f (readLink env sub st) e.2)) :
    dec (loadAndIndex env sub) (mkDict (sortFields (("type", .str t) :: onSnd (tree T) fs))) st =
      loadAs env sub t (onSnd (tr f (readLink env sub st)) fs) st := by
  have e1 : (("type", V.str t) :: onSnd (tree T) fs) = onSnd (tree T) (("type", V.str t) :: fs) := by simp [onSnd, tree]
  rw [e1, onSnd_sort, dec_mkDict (loadAndIndex env sub) st (tree T) (tr f (readLink env sub st))]
  · rw [← onSnd_sort]
    have e2 : onSnd (tr f (readLink env sub st)) (("type", V.str t) :: fs) = ("type", V.str t) :: onSnd (tr f (readLink env sub st)) fs := by
      simp [onSnd, tr]
    rw [e2]
    have hnd : ((("type", V.str t) :: onSnd (tr f (readLink env sub st)) fs).map Prod.fst).Nodup := by
      rw [List.map_cons, onSnd_fst]
      exact List.nodup_cons.2 ⟨h1, hn⟩
    have hp := sortFields_perm (("type", V.str t) :: onSnd (tr f (readLink env sub st)) fs)
    have hnd' := (hp.map Prod.fst).nodup_iff.2 hnd
    have hty : Dict.get? (sortFields (("type", V.str t) :: onSnd (tr f (readLink env sub st)) fs)) "type" = some (.str t) := by
      rw [get?_perm hp hnd']; simp [Dict.get?]
    have hself : Dict.get? (sortFields (("type", V.str t) :: onSnd (tr f (readLink env sub st)) fs)) "self" = none := by
      rw [Dict.get?_eq_none_iff]
      unfold Dict.keys
      rw [(hp.map Prod.fst).mem_iff, List.map_cons, onSnd_fst]
      simp only [List.mem_cons, not_or]
      exact ⟨by decide, h2⟩
    simp only [loadAndIndex, hty, hself, ne_eq, not_true_eq_false, if_false]
    have hget : ∀ n, Dict.get? (Dict.erase (sortFields (("type", V.str t) :: onSnd (tr f (readLink env sub st)) fs)) "type") n =
        Dict.get? (onSnd (tr f (readLink env sub st)) fs) n := by
      intro n
      rw [Dict.get?_erase hnd']
      split
      · rename_i e
        subst e
        symm
        rw [Dict.get?_eq_none_iff]
        unfold Dict.keys
        rw [onSnd_fst]
        exact h1
      · rename_i e
        rw [get?_perm hp hnd']
        simp [Dict.get?, Ne.symm e]
        intro h; exact absurd h e
    exact loadAs_congr env sub t _ _ st (fun n _ => hget n)
  · intro e he
    have := (sortFields_perm _).mem_iff.1 he
    rcases List.mem_cons.1 this with rfl | h
    · simp [tree, tr, dec]
    · exact dec_tree env sub st f T e.2 (hw e h) (hr e h) (ho e h)

theorem readLink_false (env : Env) (st : Loading) : readLink env false st = V.link := by
  funext s i
  simp [readLink, loadLink]

/-- `build` of the dictionary of a record -/
theorem build_record (env : Env) (m : Mem) (t : String) (fs : List (String × V)) (hn : (fs.map Prod.fst).Nodup)
    (h1 : "type" ∉ fs.map Prod.fst) (h2 : "self" ∉ fs.map Prod.fst) (hw : ∀ e ∈ fs, wf e.2) (hr : ∀ e ∈ fs, noRef e.2)
    (ho : ∀ e ∈ fs, okV env m (tr .ref .link e.2)) :
    build env m (mkDict (("type", .str t) :: fs)) =
      match loadAs env false t (onSnd (tr .ref .link) fs) { mem := m, index := [] } with
      | .error e => .error e
      | .ok (v, st) => .ok (v, st.mem) := by
  unfold build rawDumps
  rw [enc_record _ (fun _ => .none) t fs hw hr]
  simp only [rawLoads]
  rw [dec_record env false { mem := m, index := [] } .ref (fun _ => .none) t fs hn h1 h2 hw hr (by rw [readLink_false]; exact ho)]
  rw [readLink_false]
  rfl

/-! ## Constructing with numbers of other types -/

/-- for the proofs: a value as it appears in what is written -/
structure Clean (env : Env) (m : Mem) (v : V) : Prop where
  wf : wf v
  ok : okV env m v
  noTuple : noTuple v
  noRef : noRef v

theorem get?_zip_nf {ns : List String} {us vs : List V} (h : us.map nf = vs.map nf) (n : String) :
    (Dict.get? (ns.zip us) n).map nf = (Dict.get? (ns.zip vs) n).map nf := by
  rw [← get?_onSnd, ← get?_onSnd, onSnd_zip, onSnd_zip, h]

theorem num_nf {u v : V} (h : nf u = nf v) : num u = num v := by
  cases hv : num v with
  | some q => rw [nf_num.2 hv] at h; exact nf_num.1 h
  | none =>
    cases hu : num u with
    | none => rfl
    | some q => rw [nf_num.2 hu] at h; rw [nf_num.1 h.symm] at hv; cases hv

theorem checkOrder_nf (c : Cls) {ns : List String} {us vs : List V} (h : us.map nf = vs.map nf) :
    checkOrder c (ns.zip us) = checkOrder c (ns.zip vs) := by
  have key : ∀ n, (Dict.get? (ns.zip us) n).bind num = (Dict.get? (ns.zip vs) n).bind num := by
    intro n
    have := get?_zip_nf (ns := ns) h n
    cases h1 : Dict.get? (ns.zip us) n <;> cases h2 : Dict.get? (ns.zip vs) n <;> simp [h1, h2] at this ⊢
    exact num_nf this
  unfold checkOrder inOrder
  rw [key, key]

/-- setters that succeed one by one -/
theorem setAll_ok (env : Env) (m : Mem) (R : V → V → V → Prop) (args : List Arg) (us vs : List V) (hl : args.length = us.length)
    (hl' : args.length = vs.length)
    (h : ∀ i (h1 : i < args.length) (h2 : i < us.length) (h3 : i < vs.length), ∃ w, conv env m (args[i]).kind us[i] = .ok w ∧ R us[i] vs[i] w) :
    ∃ ws, setAll env m ((args.zip us).map (fun p => (p.1.kind, p.2))) = .ok ws ∧ ws.length = args.length ∧
      ∀ i (h1 : i < args.length) (h2 : i < us.length) (h3 : i < vs.length) (h4 : i < ws.length),
        conv env m (args[i]).kind us[i] = .ok ws[i] ∧ R us[i] vs[i] ws[i] := by
  induction args generalizing us vs with
  | nil =>
    cases us with
    | nil => exact ⟨[], rfl, rfl, by simp⟩
    | cons u us => simp at hl
  | cons a args ih =>
    cases us with
    | nil => simp at hl
    | cons u us =>
      cases vs with
      | nil => simp at hl'
      | cons v vs =>
        obtain ⟨w, hw, hR⟩ := h 0 (by simp) (by simp) (by simp)
        obtain ⟨ws, h1, h2, h3⟩ := ih us vs (by simpa using hl) (by simpa using hl') (by
          intro i h1 h2 h3
          have := h (i + 1) (by simpa using h1) (by simpa using h2) (by simpa using h3)
          simpa using this)
        simp only [List.getElem_cons_zero] at hw hR
        refine ⟨w :: ws, by simp [setAll, hw, h1], by simp [h2], ?_⟩
        intro i
        cases i with
        | zero => intro _ _ _ _; simp [hw, hR]
        | succ i =>
          intro h1 h2 h3' h4
          have := h3 i (by simpa using h1) (by simpa using h2) (by simpa using h3') (by simpa using h4)
          simpa using this

theorem construct_sim (env : Env) (m : Mem) (t : String) (ns : List String) (us vs : List V) (hv : Clean env m (.obj t ns vs))
    (hu : ∀ u ∈ us, Clean env m u) (h : us.map nf = vs.map nf) (c : Cls) (hc : Dict.get? table t = some c) (kwargs : List (String × V))
    (hk : ∀ n u, (n, u) ∈ ns.zip us → Dict.get? kwargs n = some u) :
    ∃ ws, construct env m t c kwargs = .ok (.obj t ns ws) ∧ ws.map nf = vs.map nf ∧ Clean env m (.obj t ns ws) := by
  obtain ⟨hvw, hvo, hvt, hvr⟩ := hv
  simp only [wf, noTuple, noRef, okV] at hvw hvo hvt hvr
  obtain ⟨hst, hvo⟩ := hvo
  obtain ⟨hl1, hvw⟩ := hvw
  have hst' := hst
  obtain ⟨c', hc', hns, hlen, hcv, hord⟩ := hst'
  rw [hc] at hc'
  cases hc'
  rw [wfs_iff] at hvw
  rw [okVs_iff] at hvo
  rw [noTuples_iff] at hvt
  rw [noRefs_iff] at hvr
  have hla : c.args.length = vs.length := by rw [hlen, hns]; simp [Cls.names]
  have hlu : us.length = vs.length := by simpa using congrArg List.length h
  have hb := bind_of kwargs c.args us (by omega) (by
    intro p hp
    apply hk
    rw [hns]
    have : c.names.zip us = (c.args.zip us).map (fun p => (p.1.name, p.2)) := by
      unfold Cls.names
      rw [List.zip_map_left]
      rfl
    rw [this]
    exact List.mem_map.2 ⟨p, hp, rfl⟩)
  obtain ⟨ws, h1, h2, h3⟩ := setAll_ok env m (fun u v w => w = u ∨ w = v) c.args us vs (by omega) hla (by
    intro i i1 i2 i3
    have cu := hu _ (List.getElem_mem i2)
    have mv := List.getElem_mem i3
    exact conv_sim env m _ (table_kinds t c hc _ (List.getElem_mem i1)).1 us[i] vs[i] (map_nth h i i2 i3) (hvw _ mv) cu.wf cu.noTuple
      (hvo _ mv) cu.ok (hst.nth hc i i3 i1))
  have hws : ws.map nf = vs.map nf := by
    apply List.ext_getElem
    · simp; omega
    · intro i i1 i2
      simp only [List.length_map] at i1 i2
      simp only [List.getElem_map]
      rcases (h3 i (by omega) (by omega) i2 i1).2 with e | e
      · rw [e]; exact map_nth h i (by omega) i2
      · rw [e]
  have all : ∀ w ∈ ws, Clean env m w := by
    intro w hw
    obtain ⟨i, hi, rfl⟩ := List.getElem_of_mem hw
    rcases (h3 i (by omega) (by omega) (by omega) hi).2 with e | e
    · rw [e]; exact hu _ (List.getElem_mem _)
    · rw [e]
      exact ⟨hvw _ (List.getElem_mem _), hvo _ (List.getElem_mem _), hvt _ (List.getElem_mem _), hvr _ (List.getElem_mem _)⟩
  have hco := checkOrder_nf c (ns := ns) hws
  refine ⟨ws, ?_, hws, ?_⟩
  · simp only [construct, hb, h1]
    rw [← hns, hco, hord]
  · constructor
    · simp only [wf]
      refine ⟨by omega, ?_⟩
      rw [wfs_iff]; exact fun w hw => (all w hw).wf
    · simp only [okV]
      refine ⟨⟨c, hc, hns, by omega, ?_, by rw [hco]; exact hord⟩, by rw [okVs_iff]; exact fun w hw => (all w hw).ok⟩
      intro p hp
      obtain ⟨i, hi, rfl⟩ := List.getElem_of_mem hp
      simp only [List.length_zip] at hi
      simp only [List.getElem_zip]
      obtain ⟨e1, e2⟩ := h3 i (by omega) (by omega) (by omega) (by omega)
      rcases e2 with e | e
      · rw [e] at e1 ⊢; exact e1
      · rw [e]; exact hst.nth hc i (by omega) (by omega)
    · simp only [noTuple]
      rw [noTuples_iff]; exact fun w hw => (all w hw).noTuple
    · simp only [noRef]
      rw [noRefs_iff]; exact fun w hw => (all w hw).noRef

/-! ## Normal forms and renaming -/

theorem nf_mkDict (fs : List (String × V)) : nf (mkDict fs) = mkDict (sortFields (onSnd nf fs)) := by
  have h : strings (fs.map (fun f => V.str f.1)) = some (fs.map Prod.fst) := mkDict_keys fs
  unfold mkDict
  rw [nf_dict h]
  have : (fs.map Prod.fst).zip ((fs.map Prod.snd).map nf) = onSnd nf fs := by
    rw [← onSnd_zip, zip_fst_snd]
  rw [this]; rfl

theorem nf_sortDict {ks vs : List V} {names : List String} (h : strings ks = some names) :
    nf (sortDict ks vs) = mkDict (sortFields (names.zip (vs.map nf))) := by
  simp only [sortDict, h]
  rw [nf_mkDict, ← onSnd_sort, sortFields_idem, onSnd_zip]

mutual
/-- putting a value in order does not change its normal form -/
theorem nf_tr (v : V) (hw : wf v) : nf (tr .ref .link v) = nf v := by
  cases v with
  | list l => simp only [wf] at hw; simp only [tr]; rw [nf_list, nf_list, trs_eq, nfs_tr l hw]
  | tuple l => simp only [wf] at hw; simp only [tr]; rw [nf_list, nf_tuple, trs_eq, nfs_tr l hw]
  | dict ks vs =>
    simp only [wf] at hw
    obtain ⟨⟨_, names, hs, _⟩, hw⟩ := hw
    simp only [tr]
    rw [nf_sortDict hs, nf_dict hs, trs_eq, nfs_tr vs hw]
  | obj t ns vs => simp only [wf] at hw; simp only [tr]; rw [nf_obj, nf_obj, trs_eq, nfs_tr vs hw.2]
  | _ => simp [tr]
termination_by structural v
theorem nfs_tr (l : List V) (hw : wfs l) : (l.map (tr .ref .link)).map nf = l.map nf := by
  cases l with
  | nil => rfl
  | cons v vs => simp only [wfs] at hw; simp only [List.map_cons]; rw [nf_tr v hw.1, nfs_tr vs hw.2]
termination_by structural l
end

mutual
theorem noTuple_tr (f : Nat → V) (g : String → String → V) (v : V) (hw : wf v) (hf : ∀ o, V.ref o ∈ v.subs → noTuple (f o))
    (hg : ∀ s i, V.link s i ∈ v.subs → noTuple (g s i)) : noTuple (tr f g v) := by
  cases v with
  | list l =>
    simp only [wf] at hw; simp only [tr, noTuple, trs_eq]
    exact noTuples_tr f g l hw (fun o ho => hf o (by simp [V.subs, ho])) (fun s i ho => hg s i (by simp [V.subs, ho]))
  | tuple l =>
    simp only [wf] at hw; simp only [tr, noTuple, trs_eq]
    exact noTuples_tr f g l hw (fun o ho => hf o (by simp [V.subs, ho])) (fun s i ho => hg s i (by simp [V.subs, ho]))
  | dict ks vs =>
    simp only [wf] at hw
    obtain ⟨⟨hl, names, hs, _⟩, hw⟩ := hw
    simp only [tr, sortDict, hs, mkDict, noTuple]
    have ih := noTuples_tr f g vs hw (fun o ho => hf o (by simp [V.subs, ho])) (fun s i ho => hg s i (by simp [V.subs, ho]))
    rw [noTuples_iff] at ih ⊢
    intro w hw
    have := ((sortFields_perm (names.zip (trs f g vs))).map Prod.snd).mem_iff.1 hw
    obtain ⟨p, hp, rfl⟩ := List.mem_map.1 this
    have := (List.of_mem_zip hp).2
    rw [trs_eq] at this
    exact ih _ this
  | obj t ns vs =>
    simp only [wf] at hw; simp only [tr, noTuple, trs_eq]
    exact noTuples_tr f g vs hw.2 (fun o ho => hf o (by simp [V.subs, ho])) (fun s i ho => hg s i (by simp [V.subs, ho]))
  | ref o => simp only [tr]; exact hf o (by simp [V.subs])
  | link s i => simp only [tr]; exact hg s i (by simp [V.subs])
  | _ => simp [tr, noTuple]
termination_by structural v
theorem noTuples_tr (f : Nat → V) (g : String → String → V) (l : List V) (hw : wfs l) (hf : ∀ o, V.ref o ∈ subss l → noTuple (f o))
    (hg : ∀ s i, V.link s i ∈ subss l → noTuple (g s i)) : noTuples (l.map (tr f g)) := by
  cases l with
  | nil => simp [noTuples]
  | cons v vs =>
    simp only [wfs] at hw; simp only [List.map_cons, noTuples]
    exact ⟨noTuple_tr f g v hw.1 (fun o ho => hf o (by simp [subss, ho])) (fun s i ho => hg s i (by simp [subss, ho])),
      noTuples_tr f g vs hw.2 (fun o ho => hf o (by simp [subss, ho])) (fun s i ho => hg s i (by simp [subss, ho]))⟩
termination_by structural l
end

mutual
theorem noRef_tr (f : Nat → V) (g : String → String → V) (v : V) (hw : wf v) (hf : ∀ o, V.ref o ∈ v.subs → noRef (f o))
    (hg : ∀ s i, V.link s i ∈ v.subs → noRef (g s i)) : noRef (tr f g v) := by
  cases v with
  | list l =>
    simp only [wf] at hw; simp only [tr, noRef, trs_eq]
    exact noRefs_tr f g l hw (fun o ho => hf o (by simp [V.subs, ho])) (fun s i ho => hg s i (by simp [V.subs, ho]))
  | tuple l =>
    simp only [wf] at hw; simp only [tr, noRef, trs_eq]
    exact noRefs_tr f g l hw (fun o ho => hf o (by simp [V.subs, ho])) (fun s i ho => hg s i (by simp [V.subs, ho]))
  | dict ks vs =>
    simp only [wf] at hw
    obtain ⟨⟨hl, names, hs, _⟩, hw⟩ := hw
    simp only [tr, sortDict, hs, mkDict, noRef]
    have ih := noRefs_tr f g vs hw (fun o ho => hf o (by simp [V.subs, ho])) (fun s i ho => hg s i (by simp [V.subs, ho]))
    rw [noRefs_iff] at ih ⊢
    intro w hw
    have := ((sortFields_perm (names.zip (trs f g vs))).map Prod.snd).mem_iff.1 hw
    obtain ⟨p, hp, rfl⟩ := List.mem_map.1 this
    have := (List.of_mem_zip hp).2
    rw [trs_eq] at this
    exact ih _ this
  | obj t ns vs =>
    simp only [wf] at hw; simp only [tr, noRef, trs_eq]
    exact noRefs_tr f g vs hw.2 (fun o ho => hf o (by simp [V.subs, ho])) (fun s i ho => hg s i (by simp [V.subs, ho]))
  | ref o => simp only [tr]; exact hf o (by simp [V.subs])
  | link s i => simp only [tr]; exact hg s i (by simp [V.subs])
  | _ => simp [tr, noRef]
termination_by structural v
theorem noRefs_tr (f : Nat → V) (g : String → String → V) (l : List V) (hw : wfs l) (hf : ∀ o, V.ref o ∈ subss l → noRef (f o))
    (hg : ∀ s i, V.link s i ∈ subss l → noRef (g s i)) : noRefs (l.map (tr f g)) := by
  cases l with
  | nil => simp [noRefs]
  | cons v vs =>
    simp only [wfs] at hw; simp only [List.map_cons, noRefs]
    exact ⟨noRef_tr f g v hw.1 (fun o ho => hf o (by simp [subss, ho])) (fun s i ho => hg s i (by simp [subss, ho])),
      noRefs_tr f g vs hw.2 (fun o ho => hf o (by simp [subss, ho])) (fun s i ho => hg s i (by simp [subss, ho]))⟩
termination_by structural l
end

mutual
theorem noRef_subs (v : V) (hw : wf v) (hr : noRef v) (o : Nat) : V.ref o ∉ v.subs := by
  cases v with
  | list l => simp only [wf, noRef] at hw hr; simp [V.subs, noRefs_subs l hw hr o]
  | tuple l => simp only [wf, noRef] at hw hr; simp [V.subs, noRefs_subs l hw hr o]
  | dict ks vs =>
    simp only [wf, noRef] at hw hr
    obtain ⟨⟨hl, names, hs, _⟩, hw⟩ := hw
    have hk : ∀ names : List String, V.ref o ∉ subss (names.map .str) := by
      intro names
      induction names with
      | nil => simp [subss]
      | cons n ns ih => simp [subss, V.subs, ih]
    rw [strings_eq hs]
    simp [V.subs, noRefs_subs vs hw hr o, hk]
  | obj t ns vs => simp only [wf, noRef] at hw hr; simp [V.subs, noRefs_subs vs hw.2 hr o]
  | ref o => simp [noRef] at hr
  | _ => simp [V.subs]
termination_by structural v
theorem noRefs_subs (l : List V) (hw : wfs l) (hr : noRefs l) (o : Nat) : V.ref o ∉ subss l := by
  cases l with
  | nil => simp [subss]
  | cons v vs =>
    simp only [wfs, noRefs] at hw hr
    simp [subss, noRef_subs v hw.1 hr.1 o, noRefs_subs vs hw.2 hr.2 o]
termination_by structural l
end

mutual
theorem subs_noRef (v : V) (h : ∀ o, V.ref o ∉ v.subs) : noRef v := by
  cases v with
  | list l => simp only [noRef]; exact subss_noRef l (fun o ho => h o (by simp [V.subs, ho]))
  | tuple l => simp only [noRef]; exact subss_noRef l (fun o ho => h o (by simp [V.subs, ho]))
  | dict ks vs => simp only [noRef]; exact subss_noRef vs (fun o ho => h o (by simp [V.subs, ho]))
  | obj t ns vs => simp only [noRef]; exact subss_noRef vs (fun o ho => h o (by simp [V.subs, ho]))
  | ref o => exact absurd (self_mem_subs _) (h o)
  | _ => simp [noRef]
termination_by structural v
theorem subss_noRef (l : List V) (h : ∀ o, V.ref o ∉ subss l) : noRefs l := by
  cases l with
  | nil => simp [noRefs]
  | cons v vs =>
    simp only [noRefs]
    exact ⟨subs_noRef v (fun o ho => h o (by simp [subss, ho])), subss_noRef vs (fun o ho => h o (by simp [subss, ho]))⟩
termination_by structural l
end

theorem Clean.tr {env : Env} {m : Mem} {u : V} (hu : Clean env m u) : Clean env m (tr .ref .link u) := by
  refine ⟨wf_tr _ _ u hu.wf (by simp [Json.wf]) (by simp [Json.wf]), ?_, ?_, ?_⟩
  · exact okV_tr env m m .ref .link u hu.wf hu.ok ⟨fun o _ => .inr ⟨o, rfl, fun x hx => ⟨x, hx, rfl, fun _ hb => hb⟩⟩, fun s i _ => ⟨s, i, rfl⟩⟩
  · exact noTuple_tr _ _ u hu.wf (by simp [Json.noTuple]) (by simp [Json.noTuple])
  · exact noRef_tr _ _ u hu.wf (fun o ho => (noRef_subs u hu.wf hu.noRef o ho).elim) (by simp [Json.noRef])

end Verif.Json

namespace Verif.Substitute
open Verif.Py Verif.Value Verif.Schema Verif.Json

/-! ## The dictionary `visited` while links are put in -/

/-- `visited` maps numbers to equal numbers, entities to their links and links to themselves -/
def Vis (f : Nat → V) (visited : Dict V V) : Prop := ∀ k w, Dict.get? visited k = some w →
  (∃ q, k = .float q ∧ num w = some q) ∨ (∃ o, k = .ref o ∧ w = f o) ∨ ∃ s i, k = .tuple [.str s, .str i] ∧ w = .link s i

theorem Vis.nil (f : Nat → V) : Vis f [] := by intro k w h; simp [Dict.get?_nil] at h

theorem Vis.set {f : Nat → V} {visited : Dict V V} (h : Vis f visited) {k w : V}
    (hk : (∃ q, k = .float q ∧ num w = some q) ∨ (∃ o, k = .ref o ∧ w = f o) ∨ ∃ s i, k = .tuple [.str s, .str i] ∧ w = .link s i) :
    Vis f (Dict.set visited k w) := by
  intro k' w' h'
  rw [Dict.get?_set] at h'
  split at h'
  · rename_i e
    subst e
    cases h'
    exact hk
  · exact h k' w' h'

/-- what `substitute_links` is given: the entities in it, other than the top one, have an id -/
structure Input (env : Env) (m : Mem) (scope : Option String) (fallback : Bool) (top : V) (f : Nat → V) (v : V) : Prop where
  wf : wf v
  ok : okV env m v
  noTuple : noTuple v
  refs : ∀ o, V.ref o ∈ v.subs → V.ref o ≠ top ∧ ∃ x s i, m[o]? = some x ∧ toLink env.lower scope fallback x = .ok (.link s i) ∧ f o = .link s i

/-- what it returns for it -/
structure Output (env : Env) (m : Mem) (f : Nat → V) (v w : V) : Prop where
  clean : Clean env m w
  eq : nf w = nf (tr f .link v)

section
variable {env : Env} {m : Mem} {scope : Option String} {fallback : Bool} {top : V} {f : Nat → V}

theorem Input.sub {v w : V} (h : Input env m scope fallback top f v) (hw : w ∈ v.subs) (h1 : Json.wf w) (h2 : okV env m w)
    (h3 : Json.noTuple w) : Input env m scope fallback top f w :=
  ⟨h1, h2, h3, fun o ho => h.refs o (subs_trans v w hw _ ho)⟩

theorem Input.compat {v : V} (h : Input env m scope fallback top f v) : Compat m m f .link v := by
  refine ⟨fun o ho => ?_, fun s i _ => ⟨s, i, rfl⟩⟩
  obtain ⟨_, x, s, i, _, _, e⟩ := h.refs o ho
  exact .inl ⟨s, i, e⟩

theorem Input.tr_clean {v : V} (h : Input env m scope fallback top f v) : Clean env m (tr f .link v) := by
  refine ⟨?_, okV_tr env m m f .link v h.wf h.ok h.compat, ?_, ?_⟩
  · apply wf_tr f .link v h.wf
    · intro o ho
      obtain ⟨_, x, s, i, _, _, e⟩ := h.refs o ho
      rw [e]; simp [Json.wf]
    · intros; simp [Json.wf]
  · apply noTuple_tr f .link v h.wf
    · intro o ho
      obtain ⟨_, x, s, i, _, _, e⟩ := h.refs o ho
      rw [e]; simp [Json.noTuple]
    · intros; simp [Json.noTuple]
  · apply noRef_tr f .link v h.wf
    · intro o ho
      obtain ⟨_, x, s, i, _, _, e⟩ := h.refs o ho
      rw [e]; simp [noRef]
    · intros; simp [noRef]

variable (expand : Nat → SubSt → Except PyErr (V × SubSt))

theorem leaf_clean {v : V} (h : scalar v = true ∨ isLink v = true) : Clean env m v := by
  rcases h with h | h
  · cases v <;> simp [scalar] at h <;> exact ⟨by simp [Json.wf], by simp [okV], by simp [Json.noTuple], by simp [noRef]⟩
  · cases v <;> simp [isLink] at h <;> exact ⟨by simp [Json.wf], by simp [okV], by simp [Json.noTuple], by simp [noRef]⟩

/-- numbers stay numbers -/
theorem sub_number (v : V) (q : Rat) (hq : num v = some q) (st : SubSt) (hm : st.mem = m) (hV : Vis f st.visited) :
    ∃ w st', subNumber v st = .ok (w, st') ∧ st'.mem = m ∧ Vis f st'.visited ∧ Output env m f v w := by
  have hk : v.hash = .key (.float q) := by
    cases v <;> simp [num] at hq <;> simp [V.hash, V.norm, hq]
  have out : ∀ w, num w = some q → Output env m f v w := by
    intro w hw
    refine ⟨leaf_clean (.inl (num_scalar hw)), ?_⟩
    rw [tr_scalar f .link (num_scalar hq), nf_num.2 hw, nf_num.2 hq]
  unfold subNumber
  simp only [recall, hk]
  split
  · rename_i w hw
    refine ⟨w, st, rfl, hm, hV, ?_⟩
    rcases hV _ _ hw with ⟨q', e, hq'⟩ | ⟨o, e, _⟩ | ⟨s, i, e, _⟩
    · cases e; exact out w hq'
    · cases e
    · cases e
  · refine ⟨v, _, rfl, ?_, ?_, out v hq⟩
    · simp only [remember, hk]; exact hm
    · simp only [remember, hk]
      exact hV.set (.inl ⟨q, rfl, hq⟩)

theorem through_link (v : V) (s i : String) (st : SubSt) : through expand v (.link s i) st = .ok (.link s i, remember v (.link s i) st) := rfl

/-- links stay links, entities become links -/
theorem sub_leaf (v : V) (hv : (∃ s i, v = .link s i) ∨ ∃ o, v = .ref o) (hI : Input env m scope fallback top f v) (st : SubSt) (hm : st.mem = m)
    (hV : Vis f st.visited) :
    ∃ w st', subLeaf (linkRepl env.lower scope fallback top) expand v st = .ok (w, st') ∧ st'.mem = m ∧ Vis f st'.visited ∧ Output env m f v w := by
  unfold subLeaf
  rcases hv with ⟨s, i, rfl⟩ | ⟨o, rfl⟩
  · have hk : (V.link s i).hash = .key (.tuple [.str s, .str i]) := rfl
    have out : Output env m f (.link s i) (.link s i) := ⟨leaf_clean (.inr rfl), by simp [tr]⟩
    simp only [recall, hk]
    split
    · rename_i w hw
      rcases hV _ _ hw with ⟨q', e, _⟩ | ⟨o, e, _⟩ | ⟨s', i', e, hw'⟩
      · cases e
      · cases e
      · cases e
        subst hw'
        exact ⟨_, st, rfl, hm, hV, out⟩
    · simp only [linkRepl]
      rw [through_link]
      refine ⟨_, _, rfl, ?_, ?_, out⟩
      · simp only [remember, hk]; exact hm
      · simp only [remember, hk]
        exact hV.set (.inr (.inr ⟨s, i, rfl, rfl⟩))
  · have hk : (V.ref o).hash = .key (.ref o) := rfl
    obtain ⟨hne, x, s, i, hx, hl, hf⟩ := hI.refs o (self_mem_subs _)
    have out : Output env m f (.ref o) (f o) := ⟨by rw [hf]; exact leaf_clean (.inr rfl), by simp only [tr]⟩
    simp only [recall, hk]
    split
    · rename_i w hw
      rcases hV _ _ hw with ⟨q', e, _⟩ | ⟨o', e, hw'⟩ | ⟨s', i', e, _⟩
      · cases e
      · cases e
        subst hw'
        exact ⟨_, st, rfl, hm, hV, out⟩
      · cases e
    · simp only [linkRepl, if_neg hne, hm, hx, hl]
      rw [through_link]
      rw [hf] at out
      refine ⟨_, _, rfl, ?_, ?_, out⟩
      · simp only [remember, hk]; exact hm
      · simp only [remember, hk]
        exact (hV.set (.inr (.inl ⟨o, rfl, hf.symm⟩))).set (.inr (.inl ⟨o, rfl, hf.symm⟩))

theorem sub_strings (repl : Mem → V → Except PyErr (Option V)) (names : List String) (st : SubSt) :
    subList env repl expand (names.map .str) st = .ok (names.map .str, st) := by
  induction names with
  | nil => rfl
  | cons n ns ih => simp only [List.map_cons, subList, sub, ih]

/-- the entries of `l` and `l'` belong together -/
def Outputs (env : Env) (m : Mem) (f : Nat → V) (l l' : List V) : Prop := (∀ w ∈ l', Clean env m w) ∧ l'.map nf = (l.map (tr f .link)).map nf

theorem Outputs.length {l l' : List V} (h : Outputs env m f l l') : l'.length = l.length := by
  simpa using congrArg List.length h.2

/-- building an object again from what its attributes were replaced by -/
theorem build_obj (t : String) (ns : List String) (vs ws : List V) (hI : Input env m scope fallback top f (.obj t ns vs))
    (h : Outputs env m f vs ws) :
    ∃ w, build env m (mkDict (("type", .str t) :: ns.zip ws)) = .ok (w, m) ∧ Output env m f (.obj t ns vs) w := by
  have hT := hI.tr_clean
  simp only [tr, trs_eq] at hT
  have hok := hI.ok
  have hlen := h.length
  simp only [okV] at hok
  obtain ⟨⟨c, hc, hns, hl, _⟩, _⟩ := hok
  obtain ⟨n1, n2, n3⟩ := table_names t c hc
  rw [← hns] at n1 n2 n3
  have hfst : (ns.zip ws).map Prod.fst = ns := List.map_fst_zip (by omega)
  have hmem : ∀ e ∈ ns.zip ws, Clean env m e.2 := fun e he => h.1 _ (List.of_mem_zip he).2
  have hcl : ∀ u : V, Clean env m u → Clean env m (tr .ref .link u) := fun u hu => hu.tr
  rw [build_record env m t (ns.zip ws) (by rw [hfst]; exact n1) (by rw [hfst]; exact n2) (by rw [hfst]; exact n3)
    (fun e he => (hmem e he).wf) (fun e he => (hmem e he).noRef) (fun e he => (hcl _ (hmem e he)).ok)]
  rw [onSnd_zip]
  have hnl : t ≠ "link_by_uid" := by
    rintro rfl
    exact table_not_link c hc
  have hl2 : ns.length = (ws.map (tr .ref .link)).length := by simp; omega
  obtain ⟨us, h1, h2, h3⟩ := construct_sim env m t ns (ws.map (tr .ref .link)) (vs.map (tr f .link)) hT (by
    intro u hu
    obtain ⟨w, hw, rfl⟩ := List.mem_map.1 hu
    exact hcl _ (h.1 w hw)) (by
    rw [nfs_tr]
    · exact h.2
    · rw [wfs_iff]; exact fun w hw => (h.1 w hw).wf) c hc (ns.zip (ws.map (tr .ref .link))) (by
      intro n u hu
      apply Dict.get?_of_mem _ hu
      show (Dict.keys _).Nodup
      unfold Dict.keys
      rw [List.map_fst_zip (by omega)]
      exact n1)
  refine ⟨.obj t ns us, ?_, h3, ?_⟩
  · simp only [loadAs, if_neg hnl, hc, h1]
  · simp only [tr, trs_eq]
    rw [nf_obj, nf_obj, h2]

mutual
/-- `_substitute` of anything but the top entity, while links are put in -/
theorem sub_links (v : V) (hI : Input env m scope fallback top f v) (st : SubSt) (hm : st.mem = m) (hV : Vis f st.visited) :
    ∃ w st', sub env (linkRepl env.lower scope fallback top) expand v st = .ok (w, st') ∧ st'.mem = m ∧ Vis f st'.visited ∧ Output env m f v w := by
  cases v with
  | none => exact ⟨.none, st, rfl, hm, hV, leaf_clean (.inl rfl), by simp [tr]⟩
  | str s => exact ⟨.str s, st, rfl, hm, hV, leaf_clean (.inl rfl), by simp [tr]⟩
  | bool b => simp only [sub]; exact sub_number _ _ rfl st hm hV
  | int i => simp only [sub]; exact sub_number _ _ rfl st hm hV
  | float q => simp only [sub]; exact sub_number _ _ rfl st hm hV
  | link s i => simp only [sub]; exact sub_leaf expand _ (.inl ⟨s, i, rfl⟩) hI st hm hV
  | ref o => simp only [sub]; exact sub_leaf expand _ (.inr ⟨o, rfl⟩) hI st hm hV
  | tuple l => have := hI.noTuple; simp [Json.noTuple] at this
  | list l =>
    obtain ⟨h1, h2, h3, h4⟩ := hI
    simp only [Json.wf, okV, Json.noTuple] at h1 h2 h3
    obtain ⟨l', st', e, em, eV, eO⟩ := subList_links l h1 h2 h3 (fun o ho => h4 o (by simp [V.subs, ho])) st hm hV
    refine ⟨.list l', st', by simp only [sub, e], em, eV, ⟨?_, ?_, ?_, ?_⟩, ?_⟩
    · simp only [Json.wf]; rw [wfs_iff]; exact fun w hw => (eO.1 w hw).wf
    · simp only [okV]; rw [okVs_iff]; exact fun w hw => (eO.1 w hw).ok
    · simp only [Json.noTuple]; rw [noTuples_iff]; exact fun w hw => (eO.1 w hw).noTuple
    · simp only [noRef]; rw [noRefs_iff]; exact fun w hw => (eO.1 w hw).noRef
    · simp only [tr, trs_eq]; rw [nf_list, nf_list, eO.2]
  | dict ks vs =>
    obtain ⟨h1, h2, h3, h4⟩ := hI
    simp only [Json.wf, okV, Json.noTuple] at h1 h2 h3
    obtain ⟨⟨hl, names, hs, hnd, hty⟩, h1⟩ := h1
    obtain ⟨l', st', e, em, eV, eO⟩ := subList_links vs h1 h2 h3 (fun o ho => h4 o (by simp [V.subs, ho])) st hm hV
    have hks := sub_strings (env := env) expand (linkRepl env.lower scope fallback top) names st
    rw [← strings_eq hs] at hks
    refine ⟨.dict ks l', st', by simp only [sub, hks, e], em, eV, ⟨?_, ?_, ?_, ?_⟩, ?_⟩
    · simp only [Json.wf]; rw [wfs_iff]
      exact ⟨⟨by rw [eO.length]; exact hl, names, hs, hnd, hty⟩, fun w hw => (eO.1 w hw).wf⟩
    · simp only [okV]; rw [okVs_iff]; exact fun w hw => (eO.1 w hw).ok
    · simp only [Json.noTuple]; rw [noTuples_iff]; exact fun w hw => (eO.1 w hw).noTuple
    · simp only [noRef]; rw [noRefs_iff]; exact fun w hw => (eO.1 w hw).noRef
    · simp only [tr, trs_eq]; rw [nf_dict hs, nf_sortDict hs, eO.2]
  | obj t ns vs =>
    have hI' := hI
    obtain ⟨h1, h2, h3, h4⟩ := hI
    simp only [Json.wf, okV, Json.noTuple] at h1 h2 h3
    obtain ⟨l', st', e, em, eV, eO⟩ := subList_links vs h1.2 h2.2 h3 (fun o ho => h4 o (by simp [V.subs, ho])) st hm hV
    obtain ⟨w, hw, hO⟩ := build_obj t ns vs l' hI' eO
    refine ⟨w, { st' with mem := m }, ?_, rfl, eV, hO⟩
    simp only [sub, e, em, hw]
termination_by structural v
theorem subList_links (l : List V) (hw : wfs l) (ho : okVs env m l) (ht : noTuples l)
    (hr : ∀ o, V.ref o ∈ subss l → V.ref o ≠ top ∧ ∃ x s i, m[o]? = some x ∧ toLink env.lower scope fallback x = .ok (.link s i) ∧ f o = .link s i)
    (st : SubSt) (hm : st.mem = m) (hV : Vis f st.visited) :
    ∃ l' st', subList env (linkRepl env.lower scope fallback top) expand l st = .ok (l', st') ∧ st'.mem = m ∧ Vis f st'.visited ∧
      Outputs env m f l l' := by
  cases l with
  | nil => exact ⟨[], st, rfl, hm, hV, by simp [Outputs]⟩
  | cons v vs =>
    simp only [wfs, okVs, noTuples] at hw ho ht
    obtain ⟨w, st1, e1, m1, V1, o1⟩ := sub_links v ⟨hw.1, ho.1, ht.1, fun o h => hr o (by simp [subss, h])⟩ st hm hV
    obtain ⟨ws, st2, e2, m2, V2, o2⟩ := subList_links vs hw.2 ho.2 ht.2 (fun o h => hr o (by simp [subss, h])) st1 m1 V1
    refine ⟨w :: ws, st2, by simp only [subList, e1, e2], m2, V2, ?_, ?_⟩
    · intro x hx
      rcases List.mem_cons.1 hx with rfl | hx
      · exact o1.clean
      · exact o2.1 x hx
    · simp only [List.map_cons, o1.eq, o2.2]
termination_by structural l
end

end

end Verif.Substitute
