import Verif.Props.Entity
/-!
# `substitute_links` of an entity
-/

set_option linter.unusedSimpArgs false
set_option linter.unusedVariables false
set_option linter.unusedSectionVars false

namespace Verif.Substitute
open Verif.Py Verif.Value Verif.Schema Verif.Json

theorem typ_entity (c : ECls) : Equal.typ c ≠ "link_by_uid" ∧ Dict.get? table (Equal.typ c) = none ∧ eclsOf (Equal.typ c) = some c := by
  cases c <;> decide +kernel

/-- a loaded entity whose arguments are no entities is known to no other -/
theorem linkBack_noRef (m : Mem) (o : Nat) (c : ECls) (uids : List (String × String)) (ws : List V) (name labels : V)
    (hl : ws.length = (eargs c).length) (h : ∀ p, V.ref p ∉ ws) : linkBack m o (loaded c uids ws name labels) = m := by
  unfold linkBack
  have hc : (loaded c uids ws name labels).cls = c := rfl
  rw [hc]
  split
  · rename_i there back e
    obtain ⟨a, ha, e1, _⟩ := backRef_arg c there back e
    obtain ⟨v, hv, h1, _⟩ := get?_args (own := loadedOwn c name labels) (own' := loadedOwn c name labels) hl ⟨a, ha, e1⟩
    have : Dict.get? (loaded c uids ws name labels).fields there = some v := h1
    rw [this]
    cases v <;> simp only
    exact absurd hv (h _)
  · rfl

section
variable {env : Env} {m : Mem} {scope : Option String} {fallback : Bool} {top : V} {f : Nat → V}

/-- the setters of an entity accept what its attributes were replaced by -/
theorem setAllE_sim (c : ECls) (us vs : List V) (hl : us.length = (eargs c).length) (hv : ∀ v ∈ vs, Clean env m v) (hu : ∀ u ∈ us, Clean env m u)
    (h : us.map nf = vs.map nf) (hc : ∀ p ∈ (eargs c).zip vs, conv env m p.1.kind p.2 = .ok p.2) :
    ∃ ws, setAll env m (((eargs c).zip us).map (fun p => (p.1.kind, p.2))) = .ok ws ∧ ws.length = (eargs c).length ∧ ws.map nf = vs.map nf ∧
      (∀ w ∈ ws, Clean env m w) ∧ ∀ p ∈ (eargs c).zip ws, conv env m p.1.kind p.2 = .ok p.2 := by
  have hlu : us.length = vs.length := by simpa using congrArg List.length h
  have hcv : ∀ i (h1 : i < (eargs c).length) (h2 : i < vs.length), conv env m ((eargs c)[i]).kind vs[i] = .ok vs[i] := by
    intro i h1 h2
    apply hc ((eargs c)[i], vs[i])
    apply List.mem_of_getElem? (i := i)
    rw [List.getElem?_zip_eq_some]
    exact ⟨List.getElem?_eq_getElem h1, List.getElem?_eq_getElem h2⟩
  obtain ⟨ws, h1, h2, h3⟩ := setAll_ok env m (fun u v w => w = u ∨ w = v) ((eargs c).map EArg.arg) us vs (by simp; omega) (by simp; omega) (by
    intro i i1 i2 i3
    have cu := hu _ (List.getElem_mem i2)
    have cv := hv _ (List.getElem_mem i3)
    have i1' : i < (eargs c).length := by simpa using i1
    have := conv_sim env m _ (eargs_kinds c _ (List.getElem_mem i1')).1 us[i] vs[i] (map_nth h i i2 i3) cv.wf cu.wf cu.noTuple cv.ok cu.ok (hcv i i1' i3)
    simpa [EArg.arg] using this)
  have hws : ws.length = (eargs c).length := by simpa using h2
  refine ⟨ws, ?_, hws, ?_, ?_, ?_⟩
  · rw [List.zip_map_left, List.map_map] at h1
    exact h1
  · apply List.ext_getElem
    · simp; omega
    · intro i i1 i2
      simp only [List.length_map] at i1 i2
      simp only [List.getElem_map]
      rcases (h3 i (by simp; omega) (by omega) i2 i1).2 with e | e
      · rw [e]; exact map_nth h i (by omega) i2
      · rw [e]
  · intro w hw
    obtain ⟨i, hi, rfl⟩ := List.getElem_of_mem hw
    rcases (h3 i (by simp; omega) (by omega) (by omega) hi).2 with e | e
    · rw [e]; exact hu _ (List.getElem_mem _)
    · rw [e]; exact hv _ (List.getElem_mem _)
  · intro p hp
    obtain ⟨i, hi, rfl⟩ := List.getElem_of_mem hp
    simp only [List.length_zip] at hi
    simp only [List.getElem_zip]
    obtain ⟨e1, e2⟩ := h3 i (by simp; omega) (by omega) (by omega) (by omega)
    simp only [List.getElem_map, EArg.arg] at e1
    rcases e2 with e | e
    · rw [e] at e1 ⊢; exact e1
    · rw [e]; exact hcv i (by omega) (by omega)

theorem wf_uids (us : List (String × String)) (hc : clash env.lower (us.map Prod.fst) = false) (ht : "type" ∉ us.map Prod.fst) :
    Clean env m (uidsDict us) := by
  have hv : ∀ v ∈ us.map (fun p => V.str p.2), Clean env m v := by
    intro v hv
    obtain ⟨p, _, rfl⟩ := List.mem_map.1 hv
    exact leaf_clean (.inl rfl)
  unfold uidsDict
  refine ⟨?_, ?_, ?_, ?_⟩
  · simp only [Json.wf]
    refine ⟨⟨by simp, us.map Prod.fst, ?_, uids_nodup hc, ht⟩, ?_⟩
    · have : us.map (fun p => V.str p.1) = (us.map Prod.fst).map .str := by simp
      rw [this, strings_str]
    · rw [wfs_iff]; exact fun v h => (hv v h).wf
  · simp only [okV]; rw [okVs_iff]; exact fun v h => (hv v h).ok
  · simp only [Json.noTuple]; rw [noTuples_iff]; exact fun v h => (hv v h).noTuple
  · simp only [Json.noRef]; rw [noRefs_iff]; exact fun v h => (hv v h).noRef

theorem sub_uids (repl : Mem → V → Except PyErr (Option V)) (expand : Nat → SubSt → Except PyErr (V × SubSt)) (us : List (String × String))
    (st : SubSt) : sub env repl expand (uidsDict us) st = .ok (uidsDict us, st) := by
  have h1 : us.map (fun p => V.str p.1) = (us.map Prod.fst).map .str := by simp
  have h2 : us.map (fun p => V.str p.2) = (us.map Prod.snd).map .str := by simp
  unfold uidsDict
  rw [h1, h2]
  simp only [sub, sub_strings]

theorem nameLike_out {u v : V} (hv : nameLike v) (h : nf u = nf (tr f .link v)) : u = v := by
  rcases hv with rfl | hv
  · exact nf_none.1 (by rw [h]; simp [nf, cn, tr])
  · cases v <;> simp [isStr] at hv
    exact nf_str.1 (by rw [h]; simp [nf, cn, tr])

theorem labelsLike_out {u v : V} (hv : labelsLike v) (ht : Json.noTuple u) (h : nf u = nf (tr f .link v)) : u = v := by
  rcases hv with rfl | ⟨l, rfl, hl⟩
  · exact nf_none.1 (by rw [h]; simp [nf, cn, tr])
  · have : tr f .link (.list l) = .list l := by
      simp only [tr]
      rw [trs_scalar f .link (fun w hw => isStr_scalar (hl w hw))]
    rw [this, nf_list] at h
    obtain ⟨us, rfl, hus⟩ := nf_list_inv ht h
    rw [nf_scalars hl hus]

theorem nameLike_clean {v : V} (h : nameLike v) : Clean env m v ∧ ∀ g : Nat → V, ∀ g', tr g g' v = v := by
  rcases h with rfl | h
  · exact ⟨leaf_clean (.inl rfl), fun _ _ => by simp [tr]⟩
  · cases v <;> simp [isStr] at h
    exact ⟨leaf_clean (.inl rfl), fun _ _ => by simp [tr]⟩

theorem labelsLike_clean {v : V} (h : labelsLike v) : Clean env m v ∧ ∀ g : Nat → V, ∀ g', tr g g' v = v := by
  rcases h with rfl | ⟨l, rfl, hl⟩
  · exact ⟨leaf_clean (.inl rfl), fun _ _ => by simp [tr]⟩
  · have : ∀ v ∈ l, Clean env m v := fun v hv => leaf_clean (.inl (isStr_scalar (hl v hv)))
    refine ⟨⟨?_, ?_, ?_, ?_⟩, fun g g' => ?_⟩
    · simp only [Json.wf]; rw [wfs_iff]; exact fun v h => (this v h).wf
    · simp only [okV]; rw [okVs_iff]; exact fun v h => (this v h).ok
    · simp only [Json.noTuple]; rw [noTuples_iff]; exact fun v h => (this v h).noTuple
    · simp only [Json.noRef]; rw [noRefs_iff]; exact fun v h => (this v h).noRef
    · simp only [tr]
      rw [trs_scalar g g' (fun w hw => isStr_scalar (hl w hw))]

/-- `from_dict` of the dictionary of an entity whose attributes have been replaced -/
theorem build_entity (c : ECls) (uids : List (String × String)) (hc : clash env.lower (uids.map Prod.fst) = false) (hty : "type" ∉ uids.map Prod.fst)
    (us vs : List V) (hl : us.length = (eargs c).length) (hv : ∀ v ∈ vs, Clean env m v) (hu : ∀ u ∈ us, Clean env m u)
    (h : us.map nf = vs.map nf) (hcv : ∀ p ∈ (eargs c).zip vs, conv env m p.1.kind p.2 = .ok p.2) (name labels : V) (hn : nameLike name)
    (hlb : labelsLike labels) (part : List (String × V)) (hpart : part = if c = .ingredientRun then [("name", name), ("labels", labels)] else []) :
    ∃ ws, build env m (mkDict (("type", .str (Equal.typ c)) :: ("uids", uidsDict uids) :: (((eargs c).map EArg.name).zip us ++ part))) =
        .ok (.ref m.length, m ++ [loaded c (sortUids uids) ws name labels]) ∧ ws.length = (eargs c).length ∧ ws.map nf = vs.map nf ∧
      (∀ w ∈ ws, Clean env m w) ∧ ∀ p ∈ (eargs c).zip ws, conv env m p.1.kind p.2 = .ok p.2 := by
  obtain ⟨t1, t2, t3⟩ := typ_entity c
  obtain ⟨n1, n2, n3, n4⟩ := eargs_names c
  have hpn : part.map Prod.fst = if c = .ingredientRun then ["name", "labels"] else [] := by
    rw [hpart]; split <;> rfl
  have hfst : (("uids", uidsDict uids) :: (((eargs c).map EArg.name).zip us ++ part)).map Prod.fst =
      "uids" :: ((eargs c).map EArg.name ++ if c = .ingredientRun then ["name", "labels"] else []) := by
    rw [List.map_cons, List.map_append, hpn, List.map_fst_zip (by simp [hl])]
  have hnd : ("uids" :: ((eargs c).map EArg.name ++ if c = .ingredientRun then ["name", "labels"] else [])).Nodup ∧
      "type" ∉ ("uids" :: ((eargs c).map EArg.name ++ if c = .ingredientRun then ["name", "labels"] else [])) ∧
      "self" ∉ ("uids" :: ((eargs c).map EArg.name ++ if c = .ingredientRun then ["name", "labels"] else [])) := by
    cases c <;> decide +kernel
  have hpc : ∀ e ∈ part, Clean env m e.2 ∧ ∀ g : Nat → V, ∀ g', tr g g' e.2 = e.2 := by
    intro e he
    rw [hpart] at he
    split at he
    · simp only [List.mem_cons, List.not_mem_nil, or_false] at he
      rcases he with rfl | rfl
      · exact nameLike_clean hn
      · exact labelsLike_clean hlb
    · simp at he
  have hcl : ∀ e ∈ ("uids", uidsDict uids) :: (((eargs c).map EArg.name).zip us ++ part), Clean env m e.2 := by
    intro e he
    rcases List.mem_cons.1 he with rfl | he
    · exact wf_uids uids hc hty
    · rcases List.mem_append.1 he with he | he
      · exact hu _ (List.of_mem_zip he).2
      · exact (hpc e he).1
  rw [build_record env m _ _ (by rw [hfst]; exact hnd.1) (by rw [hfst]; exact hnd.2.1) (by rw [hfst]; exact hnd.2.2)
    (fun e he => (hcl e he).wf) (fun e he => (hcl e he).noRef) (fun e he => (hcl e he).tr.ok)]
  obtain ⟨ws, w1, w2, w3, w4, w5⟩ := setAllE_sim (env := env) (m := m) c (us.map (tr .ref .link)) vs (by simpa using hl) hv
    (by
      intro u hu'
      obtain ⟨w, hw, rfl⟩ := List.mem_map.1 hu'
      exact (hu w hw).tr)
    (by rw [nfs_tr]
        · exact h
        · rw [wfs_iff]; exact fun w hw => (hu w hw).wf) hcv
  have hnd' : (Dict.keys (onSnd (tr .ref .link) (("uids", uidsDict uids) :: (((eargs c).map EArg.name).zip us ++ part)))).Nodup := by
    unfold Dict.keys
    rw [onSnd_fst, hfst]
    exact hnd.1
  have hget : ∀ k v, (k, v) ∈ ("uids", uidsDict uids) :: (((eargs c).map EArg.name).zip us ++ part) →
      Dict.get? (onSnd (tr .ref .link) (("uids", uidsDict uids) :: (((eargs c).map EArg.name).zip us ++ part))) k = some (tr .ref .link v) := by
    intro k v hkv
    apply Dict.get?_of_mem hnd'
    exact List.mem_map.2 ⟨(k, v), hkv, rfl⟩
  have hfd := fromDictE_eq env m c (onSnd (tr .ref .link) (("uids", uidsDict uids) :: (((eargs c).map EArg.name).zip us ++ part)))
    (us.map (tr .ref .link)) ws (sortUids uids) name labels (by simpa using hl) w2 (by
      intro p hp
      rw [List.zip_map_right] at hp
      obtain ⟨q, hq, rfl⟩ := List.mem_map.1 hp
      apply hget
      apply List.mem_cons_of_mem
      apply List.mem_append_left
      rw [List.zip_map_left]
      exact List.mem_map.2 ⟨q, hq, rfl⟩) w1 (by
      rw [hget "uids" (uidsDict uids) (by simp)]
      exact convUids_tr env .ref .link uids hc) (by
      intro p hp
      have := (w4 _ hp).noRef
      simp [Json.noRef] at this) (by
      intro hi
      rw [if_pos hi] at hpart
      rw [hget "name" name (by simp [hpart]), hget "labels" labels (by simp [hpart])]
      simp only [Option.getD_some]
      rw [(nameLike_clean (env := env) (m := m) hn).2, (labelsLike_clean (env := env) (m := m) hlb).2]
      exact ⟨rfl, rfl, hlb⟩)
  rw [linkBack_noRef m m.length c _ ws name labels w2 (by
    intro p hp
    have := (w4 _ hp).noRef
    simp [Json.noRef] at this)] at hfd
  refine ⟨ws, ?_, w2, w3, w4, w5⟩
  simp only [loadAs, if_neg t1, t2, t3, hfd]

theorem expandE_succ (repl : Mem → V → Except PyErr (Option V)) (k o : Nat) (st : SubSt) : expandE env repl (k + 1) o st = match st.mem[o]? with
    | none => .error .other
    | some x =>
      match subList env repl (expandE env repl k) ((asDict st.mem x).map Prod.snd) st with
      | .error e => .error e
      | .ok (vs, st1) => match build env st1.mem (mkDict (((asDict st.mem x).map Prod.fst).zip vs)) with
        | .error e => .error e
        | .ok (w, m) => .ok (w, { st1 with mem := m }) := rfl

/-- what is assumed of an entity that is stripped: its attributes have distinct string keys in their dictionaries, none is called
"type"; they contain no tuples; the other entities in them have a link each -/
structure Strippable (env : Env) (m : Mem) (scope : Option String) (fallback : Bool) (f : Nat → V) (o : Nat) (x : EObj) (vals : List V) : Prop where
  plain : ∀ v ∈ vals, Json.wf v ∧ Json.noTuple v
  noType : "type" ∉ x.uids.map Prod.fst
  refs : ∀ v ∈ vals, ∀ p, V.ref p ∈ v.subs → p ≠ o ∧ ∃ y s i, m[p]? = some y ∧ toLink env.lower scope fallback y = .ok (.link s i) ∧ f p = .link s i

theorem strip_entity (hT : WellTyped env m) (o : Nat) (x : EObj) (hx : m[o]? = some x) (vals : List V) (own : List (String × V))
    (hs : Shape env m x vals own)
    (hown : x.cls = .ingredientRun → ∃ name labels, own = [("_name", name), ("_labels", labels)] ∧ nameLike name ∧ labelsLike labels)
    (hp : Strippable env m scope fallback f o x vals) :
    ∃ ws name labels, substituteLinks env scope fallback m (.ref o) = .ok (.ref m.length, m ++ [loaded x.cls (sortUids x.uids) ws name labels]) ∧
      ws.length = (eargs x.cls).length ∧ ws.map nf = (vals.map (tr f .link)).map nf ∧ (∀ w ∈ ws, Clean env m w) ∧
      (∀ p ∈ (eargs x.cls).zip ws, conv env m p.1.kind p.2 = .ok p.2) ∧ nameLike name ∧ labelsLike labels ∧
      ingredientPart m x own = if x.cls = .ingredientRun then [("name", name), ("labels", labels)] else [] := by
  have hparts : ∃ name labels, ingredientPart m x own = (if x.cls = .ingredientRun then [("name", name), ("labels", labels)] else []) ∧
      nameLike name ∧ labelsLike labels := by
    by_cases hi : x.cls = .ingredientRun
    · obtain ⟨nm, lb, e, h1, h2⟩ := ingredientPart_eq hT hs hi (hown hi)
      exact ⟨nm, lb, by rw [if_pos hi, e], h1, h2⟩
    · exact ⟨.none, .none, by rw [if_neg hi]; unfold ingredientPart; rw [if_neg hi], .inl rfl, .inl rfl⟩
  obtain ⟨name, labels, hpart, hn, hlb⟩ := hparts
  have hI : ∀ v ∈ vals, Input env m scope fallback (.ref o) f v := by
    intro v hv
    refine ⟨(hp.plain v hv).1, hs.ok v hv, (hp.plain v hv).2, ?_⟩
    intro p hpv
    obtain ⟨h1, h2⟩ := hp.refs v hv p hpv
    exact ⟨by simpa using h1, h2⟩
  have hpc : ∀ v ∈ (ingredientPart m x own).map Prod.snd, Clean env m v ∧ ∀ g : Nat → V, ∀ g', tr g g' v = v := by
    intro v hv
    rw [hpart] at hv
    split at hv
    · simp only [List.map_cons, List.map_nil, List.mem_cons, List.not_mem_nil, or_false] at hv
      rcases hv with rfl | rfl
      · exact nameLike_clean hn
      · exact labelsLike_clean hlb
    · simp at hv
  have hI2 : ∀ v ∈ vals ++ (ingredientPart m x own).map Prod.snd, Input env m scope fallback (.ref o) f v := by
    intro v hv
    rcases List.mem_append.1 hv with hv | hv
    · exact hI v hv
    · have hcl := (hpc v hv).1
      exact ⟨hcl.wf, hcl.ok, hcl.noTuple, fun p hpv => absurd hpv (noRef_subs v hcl.wf hcl.noRef p)⟩
  obtain ⟨l', st', e1, e2, e3, e4⟩ := subList_links (env := env) (m := m) (scope := scope) (fallback := fallback) (top := .ref o) (f := f)
    (expandE env (linkRepl env.lower scope fallback (.ref o)) 0) (vals ++ (ingredientPart m x own).map Prod.snd)
    (by rw [wfs_iff]; exact fun v hv => (hI2 v hv).wf) (by rw [okVs_iff]; exact fun v hv => (hI2 v hv).ok)
    (by rw [noTuples_iff]; exact fun v hv => (hI2 v hv).noTuple) (by
      intro p hpv
      rw [mem_subss] at hpv
      obtain ⟨v, hv, hpv⟩ := hpv
      exact (hI2 v hv).refs p hpv) { visited := [], mem := m } rfl (Vis.nil f)
  obtain ⟨us, pws, rfl, hlu⟩ : ∃ us pws, l' = us ++ pws ∧ us.length = vals.length := by
    refine ⟨l'.take vals.length, l'.drop vals.length, by simp, ?_⟩
    have := e4.length
    simp at this ⊢
    omega
  obtain ⟨hcl, heq⟩ := e4
  simp only [List.map_append] at heq
  obtain ⟨hq1, hq2⟩ := List.append_inj heq (by simpa using hlu)
  have hpws : pws = (ingredientPart m x own).map Prod.snd := by
    rw [hpart] at hq2 ⊢
    split at hq2
    · rename_i hi
      rw [if_pos hi]
      simp only [List.map_cons, List.map_nil] at hq2 ⊢
      match pws, hq2 with
      | [a, b], hq2 =>
        simp only [List.map_cons, List.map_nil, List.cons.injEq, and_true] at hq2
        rw [nameLike_out hn hq2.1, labelsLike_out hlb (hcl b (by simp)).noTuple hq2.2]
      | [], hq2 => simp at hq2
      | [_], hq2 => simp at hq2
      | _ :: _ :: _ :: _, hq2 => simp at hq2
    · rename_i hi
      rw [if_neg hi]
      simpa using hq2
  subst hpws
  have hc1 : ∀ p ∈ (eargs x.cls).zip (vals.map (tr f .link)), conv env m p.1.kind p.2 = .ok p.2 := by
    intro p hp'
    rw [List.zip_map_right] at hp'
    obtain ⟨q, hq, rfl⟩ := List.mem_map.1 hp'
    have hm := List.of_mem_zip (a := q.1) (b := q.2) hq
    have hin := hI _ hm.2
    exact conv_tr env m m _ (eargs_kinds _ _ hm.1).1 f .link q.2 hin.wf hin.ok hin.compat (hs.conv q hq)
  obtain ⟨ws, w1, w2, w3, w4, w5⟩ := build_entity (env := env) (m := m) x.cls x.uids hs.uids hp.noType us (vals.map (tr f .link))
    (by rw [hlu]; exact hs.len) (by
      intro v hv
      obtain ⟨w, hw, rfl⟩ := List.mem_map.1 hv
      exact (hI w hw).tr_clean) (fun u hu => hcl u (by simp [hu])) hq1 hc1 name labels hn hlb (ingredientPart m x own) hpart
  refine ⟨ws, name, labels, ?_, w2, w3, w4, w5, hn, hlb, hpart⟩
  have hk : (V.ref o).hash = .key (.ref o) := rfl
  have hexp : expandE env (linkRepl env.lower scope fallback (.ref o)) 1 o { visited := [], mem := m } =
      .ok (.ref m.length, { st' with mem := m ++ [loaded x.cls (sortUids x.uids) ws name labels] }) := by
    rw [show (1 : Nat) = 0 + 1 from rfl, expandE_succ]
    simp only [hx, asDict_eq hs m, List.map_cons, List.map_append]
    rw [List.map_snd_zip (by simp [hs.len]), List.map_fst_zip (by simp [hs.len])]
    simp only [subList, sub, sub_uids, e1, e2, List.zip_cons_cons]
    rw [List.zip_append (by simp [hlu, hs.len]), zip_fst_snd, w1]
  unfold substituteLinks substitute
  simp only [sub, subLeaf, recall, hk, Dict.get?_nil, linkRepl, if_true, through, hexp, remember]

end

end Verif.Substitute
