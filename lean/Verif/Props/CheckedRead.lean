import Verif.Props.CheckedMirror
/-!
# C69: reading the records of a written object at a validation level
-/

set_option linter.unusedSimpArgs false
set_option linter.unusedVariables false
set_option linter.unusedSectionVars false

namespace Verif.Checked
open Verif.Py Verif.Value Verif.Schema Verif.Json Verif.Level Verif.Substitute Verif.Traverse

section
variable {lower : String → String} {J : Judge} {m m' : Mem} {S : Nat → Prop} {φ : Nat → Nat}

mutual
/-- the objects in a value pass where those in its image do -/
theorem pass_pair (hJ : Fair lower J) (hM : Mirror lower m m' S φ) (l : Level) (v u : V) (h : Pair lower m S φ v u) :
    PassV (fun w => guard J l m' w = .ok ()) u ↔ PassV (fun w => guard J l m w = .ok ()) v := by
  have hh := h
  obtain ⟨h, hg⟩ := h
  cases v with
  | list l' =>
    simp only [Substitute.alike] at h
    obtain ⟨us, rfl, h⟩ := h
    simp only [PassV]
    exact pass_pairs hJ hM l l' us h (fun w hw => hg.mono (subs_list hw))
  | tuple l' =>
    simp only [Substitute.alike] at h
    obtain ⟨us, rfl, h⟩ := h
    simp only [PassV]
    exact pass_pairs hJ hM l l' us h (fun w hw => hg.mono (subs_tuple hw))
  | dict ks vs =>
    simp only [Substitute.alike] at h
    obtain ⟨ks', vs', ps, rfl, hl, hp, _, h⟩ := h
    simp only [PassV]
    rw [← pass_pairs hJ hM l vs _ h (fun w hw => hg.mono (subs_dict hw)), passVs_iff, passVs_iff]
    have : (ps.map Prod.snd).Perm vs' := by
      have := hp.map Prod.snd
      rwa [List.map_snd_zip (by omega)] at this
    exact ⟨fun h v hv => h v (this.mem_iff.1 hv), fun h v hv => h v (this.mem_iff.2 hv)⟩
  | obj t ns vs =>
    simp only [Substitute.alike] at h
    obtain ⟨us, rfl, h⟩ := h
    simp only [PassV]
    rw [pass_pairs hJ hM l vs us h (good_obj hg), guard_pair hJ hM hh l]
  | ref o => simp only [Substitute.alike] at h; subst h; simp [PassV]
  | link s i => simp only [Substitute.alike, SameLink] at h; subst h; simp [PassV]
  | none => simp only [Substitute.alike] at h; subst h; simp [PassV]
  | str s => simp only [Substitute.alike] at h; subst h; simp [PassV]
  | bool b => simp only [Substitute.alike] at h; cases u <;> simp [num] at h <;> simp [PassV]
  | int b => simp only [Substitute.alike] at h; cases u <;> simp [num] at h <;> simp [PassV]
  | float b => simp only [Substitute.alike] at h; cases u <;> simp [num] at h <;> simp [PassV]
termination_by structural v
theorem pass_pairs (hJ : Fair lower J) (hM : Mirror lower m m' S φ) (l : Level) (vs us : List V) (h : alikes (fun o w => w = .ref (φ o)) SameLink vs us)
    (hg : ∀ v ∈ vs, Good lower m S v) : PassVs (fun w => guard J l m' w = .ok ()) us ↔ PassVs (fun w => guard J l m w = .ok ()) vs := by
  cases vs with
  | nil => simp only [alikes] at h; subst h; simp [PassVs]
  | cons v vs =>
    simp only [alikes] at h
    obtain ⟨w, ws, rfl, h1, h2⟩ := h
    simp only [PassVs]
    rw [pass_pair hJ hM l v w ⟨h1, hg v (by simp)⟩, pass_pairs hJ hM l vs ws h2 (fun v hv => hg v (by simp [hv]))]
termination_by structural vs
end

end

/-! ## The entities that have been read -/

/-- where an entity comes to lie -/
abbrev place (base : Nat) (L : List Nat) (o : Nat) : Nat := base + L.idxOf o

/-- one of the first `j` -/
abbrev Among (L : List Nat) (j : Nat) (o : Nat) : Prop := ∃ b, ∃ hb : b < L.length, b < j ∧ L[b] = o

section
variable {J : Judge} {env : Env} {m M : Mem} {f : Nat → V} {L : List Nat} {base j : Nat} {st : Loading}

theorem read_own (c : ECls) : ∀ n ∈ readNames, n ∉ (ownFields c).map Prod.fst := by
  cases c <;> decide +kernel

theorem carries_same (hget : ∀ o ∈ L, M[o]? = m[o]?) {o : Nat} (ho : o ∈ L) {s i : String} : Carries env.lower M o s i ↔ Carries env.lower m o s i := by
  unfold Carries
  rw [hget o ho]

/-- the entities that have been read mirror those that were written -/
theorem Loaded.mirror (hS : Source env M f L) (hget : ∀ o ∈ L, M[o]? = m[o]?) (hI : Loaded env M L base j st) :
    Mirror env.lower m st.mem (Among L j) (place base L) := by
  refine ⟨?_, ?_, ?_⟩
  · rintro o ⟨b, hb, hbj, rfl⟩
    obtain ⟨x, z, hx, hz, vals, own, us, name, labels, hs, _, _, _, hc, hu, hz', hnf, hus⟩ := hI.image b hb hbj
    refine ⟨x, z, by rw [← hget _ (List.getElem_mem hb)]; exact hx, by rw [place, idx_get hS.nodup hb]; exact hz, hc, by rw [hu]; exact (sortUids_perm _).trans (sortUids_perm _), ?_⟩
    intro n hn
    by_cases ha : ∃ a ∈ eargs x.cls, a.attr = n
    · obtain ⟨a, ha, rfl⟩ := ha
      obtain ⟨v, u, g1, g2, g3, g4, e, _, _, g5⟩ := image_attr hs hz' hc hnf ha
      rw [g1, g2]
      have hpl := hS.plain _ (List.getElem_mem hb) x hx _ g5
      refine .some ⟨?_, ?_, ?_⟩
      · exact alike_nf (f := imageOf base L) (g := .link) v u hpl.1 hpl.2 (hus u g4).1 (hus u g4).2 (fun _ _ => by unfold imageOf; trivial) (fun _ _ _ => trivial) g3
      · intro p hp
        obtain ⟨c, hc, hcb, e⟩ := hS.refs b hb x hx _ g5 p hp
        exact ⟨c, hc, by omega, e⟩
      · rintro s i hsi p ⟨c, hc, _, rfl⟩ hca
        exact hS.foreign _ (List.getElem_mem hb) x hx _ g5 s i hsi _ (List.getElem_mem hc) ((carries_same hget (List.getElem_mem hc)).2 hca)
    · have no : ∀ (y : EObj) (vs : List V) (o : List (String × V)) (m : Mem), y.cls = x.cls → Shape env m y vs o → Dict.get? y.fields n = none := by
        intro y vs o m hy hs
        rw [Dict.get?_eq_none_iff]
        unfold Dict.keys
        rw [hs.fields, List.map_append, hs.own, List.mem_append, not_or]
        refine ⟨?_, read_own _ n hn⟩
        rw [List.map_fst_zip (by simp [hs.len]), hy]
        intro h
        obtain ⟨a, h1, h2⟩ := List.mem_map.1 h
        exact ha ⟨a, h1, h2⟩
      rw [no x _ _ _ rfl hs, no z _ _ _ hc hz']
      exact .none
  · rintro p q s i ⟨a, ha, _, rfl⟩ ⟨b, hb, _, rfl⟩ h1 h2
    exact hS.apart _ (List.getElem_mem ha) _ (List.getElem_mem hb) s i ((carries_same hget (List.getElem_mem ha)).2 h1) ((carries_same hget (List.getElem_mem hb)).2 h2)
  · rintro p ⟨a, ha, _, rfl⟩
    obtain ⟨s, i, _, hc⟩ := hS.link _ (List.getElem_mem ha)
    exact ⟨_, i, (carries_same hget (List.getElem_mem ha)).1 hc⟩

/-- reading a value runs the checks that its objects would get where they were written -/
theorem Loaded.calls (hJ : Fair env.lower J) (hS : Source env M f L) (hget : ∀ o ∈ L, M[o]? = m[o]?) (hI : Loaded env M L base j st) (l : Level) {v w : V} (hv : wf v) (htv : noTuple v) (hov : okV env M v)
    (hr : ∀ p, V.ref p ∈ v.subs → ∃ b, ∃ hb : b < L.length, b < j ∧ L[b] = p)
    (hl : ∀ s i, V.link s i ∈ v.subs → ∀ p ∈ L, ¬ Carries env.lower M p (env.lower s) i)
    (hw : Clean env M w) (h : nf w = nf (tr f .link v)) :
    Calls (loadAndIndex env true) (Passes J l) (tree (fun _ => .none) w) st ↔ PassV (fun u => guard J l m u = .ok ()) v := by
  obtain ⟨h1, h2, h3, h4, h5, h6, h7⟩ := hI.value hS hv htv hov hr hl hw h
  rw [calls_tree (f := .ref) w hw.wf hw.noRef h2]
  apply pass_pair hJ (Loaded.mirror hS hget hI)
  refine ⟨alike_nf (f := imageOf base L) (g := .link) v _ hv htv h6 h7 (fun _ _ => by unfold imageOf; trivial) (fun _ _ _ => trivial) h1, hr, ?_⟩
  rintro s i hsi p ⟨b, hb, _, rfl⟩ hc
  exact hl s i hsi _ (List.getElem_mem hb) ((carries_same hget (List.getElem_mem hb)).2 hc)

/-- a dictionary of strings has no objects in it -/
theorem pass_plain {G : V → Prop} {v : V} (h : nameLike v ∨ labelsLike v) : PassV G v := by
  have hstr : ∀ v, isStr v = true → PassV G v := by
    intro v hv
    cases v <;> simp [isStr] at hv
    simp [PassV]
  rcases h with (rfl | h) | (rfl | ⟨l, rfl, h⟩)
  · simp [PassV]
  · exact hstr _ h
  · simp [PassV]
  · simp only [PassV]
    exact passVs_iff.2 (fun v hv => hstr v (h v hv))

theorem pass_sorted {G : V → Prop} (us : List (String × String)) : PassV G (mkDict (sortFields (asFields us))) := by
  simp only [mkDict, PassV]
  rw [passVs_iff]
  intro v hv
  rw [((sortFields_perm _).map Prod.snd).mem_iff] at hv
  obtain ⟨e, he, rfl⟩ := List.mem_map.1 hv
  obtain ⟨u, _, rfl⟩ := List.mem_map.1 he
  simp [PassV]

/-- reading the record of an entity runs the checks of the objects among its attributes, and its own -/
theorem record_calls (hJ : Fair env.lower J) (hS : Source env M f L) (hget : ∀ o ∈ L, M[o]? = m[o]?) (hI : Loaded env M L base j st) (hj : j < L.length) {x y : EObj} (hx : M[L[j]]? = some x)
    (hy : Copy env M f x y) (m2 : Mem) (l : Level) {vals : List V} {own : List (String × V)} (hsx : Shape env M x vals own) :
    Calls (loadAndIndex env true) (Passes J l) (recordTree m2 y) st ↔
      (∀ v ∈ vals, PassV (fun u => guard J l m u = .ok ()) v) ∧ guard J l m (.ref L[j]) = .ok () := by
  obtain ⟨st', hdec, hI'⟩ := load_step hS hI hj hx hy m2
  obtain ⟨vals', own', ws, name, labels, hs, rfl, hlw, hnf, hclean, hconv, hname, hlabels, hpart⟩ := hy
  obtain ⟨rfl, rfl⟩ := Shape.unique hs hsx
  have hpl := hS.plain _ (List.getElem_mem hj) x hx
  have hdx := asDict_eq hs M
  have hty : "type" ∉ x.uids.map Prod.fst := noType_uids (hpl ("uids", uidsDict x.uids) (by rw [hdx]; simp)).1
  have hty' : "type" ∉ (sortUids x.uids).map Prod.fst := fun h => hty (((sortUids_perm x.uids).map Prod.fst).mem_iff.1 h)
  have hcl' : clash env.lower ((sortUids x.uids).map Prod.fst) = false := clash_perm env.lower ((sortUids_perm x.uids).map Prod.fst).symm hs.uids
  have hshape := copy_shape (Grows.refl M) hs.uids hlw hclean hconv name labels
  have hd := asDict_eq hshape m2
  rw [copy_part hlw (fun w hw p e => by have := (hclean w hw).noRef; rw [e] at this; simp [noRef] at this)] at hd
  simp only [loaded] at hd
  have hmem : ∀ i (h1 : i < (eargs x.cls).length) (h2 : i < vals'.length), ((eargs x.cls)[i].name, vals'[i]) ∈ asDict M x := by
    intro i h1 h2
    rw [hdx]
    apply List.mem_cons_of_mem
    apply List.mem_cons_of_mem
    apply List.mem_append_left
    rw [List.zip_map_left]
    exact List.mem_map.2 ⟨((eargs x.cls)[i], vals'[i]), zip_nth h1 h2, rfl⟩
  have hlv := hs.len
  have hval : ∀ i (h2 : i < vals'.length) (h3 : i < ws.length), _ := fun i h2 h3 =>
    hI.value hS (v := vals'[i]) (w := ws[i]) (hpl _ (hmem i (by omega) h2)).1 (hpl _ (hmem i (by omega) h2)).2 (hs.ok _ (List.getElem_mem h2))
      (hS.refs j hj x hx _ (hmem i (by omega) h2)) (hS.foreign _ (List.getElem_mem hj) x hx _ (hmem i (by omega) h2)) (hclean _ (List.getElem_mem h3))
      (by have := map_nth hnf i h3 (by simpa using h2); simpa using this)
  have hcalls : ∀ i (h2 : i < vals'.length) (h3 : i < ws.length), _ := fun i h2 h3 =>
    Loaded.calls hJ hS hget hI l (v := vals'[i]) (w := ws[i]) (hpl _ (hmem i (by omega) h2)).1 (hpl _ (hmem i (by omega) h2)).2 (hs.ok _ (List.getElem_mem h2))
      (hS.refs j hj x hx _ (hmem i (by omega) h2)) (hS.foreign _ (List.getElem_mem hj) x hx _ (hmem i (by omega) h2)) (hclean _ (List.getElem_mem h3))
      (by have := map_nth hnf i h3 (by simpa using h2); simpa using this)
  generalize hpt : (if x.cls = .ingredientRun then [("name", name), ("labels", labels)] else ([] : List (String × V))) = part at *
  have hpc : ∀ e ∈ part, (Clean env st.mem e.2 ∧ ∀ g : Nat → V, ∀ g', tr g g' e.2 = e.2) ∧ ∀ G, PassV G e.2 := by
    intro e he
    rw [← hpt] at he
    split at he
    · simp only [List.mem_cons, List.not_mem_nil, or_false] at he
      rcases he with rfl | rfl
      · exact ⟨nameLike_clean hname, fun G => pass_plain (.inl hname)⟩
      · exact ⟨labelsLike_clean hlabels, fun G => pass_plain (.inr hlabels)⟩
    · simp at he
  have hucl : Clean env st.mem (uidsDict (sortUids x.uids)) := wf_uids _ hcl' hty'
  have huok : okV env st.mem (tr .ref (readLink env true st) (uidsDict (sortUids x.uids))) := by
    have := hucl.tr.ok
    rw [tr_uids] at this ⊢
    exact this
  -- the fields of the record
  have hfs : ∀ e ∈ ("type", V.str (Equal.typ x.cls)) :: ("uids", uidsDict (sortUids x.uids)) :: (((eargs x.cls).map EArg.name).zip ws ++ part),
      wf e.2 ∧ noRef e.2 ∧ okV env st.mem (tr .ref (readLink env true st) e.2) := by
    intro e he
    rcases List.mem_cons.1 he with rfl | he
    · simp [wf, noRef, tr, okV]
    rcases List.mem_cons.1 he with rfl | he
    · exact ⟨hucl.wf, hucl.noRef, huok⟩
    · rcases List.mem_append.1 he with he | he
      · have h1 := (List.of_mem_zip (a := e.1) (b := e.2) he).2
        refine ⟨(hclean _ h1).wf, (hclean _ h1).noRef, ?_⟩
        obtain ⟨i, hi, e'⟩ := List.getElem_of_mem h1
        rw [← e']
        exact (hval i (by omega) hi).2.1
      · obtain ⟨⟨h1, h2⟩, _⟩ := hpc e he
        exact ⟨h1.wf, h1.noRef, by rw [h2]; exact h1.ok⟩
  have hpp := sortFields_perm (("type", V.str (Equal.typ x.cls)) :: ("uids", uidsDict (sortUids x.uids)) :: (((eargs x.cls).map EArg.name).zip ws ++ part))
  have hd' : ∀ e ∈ sortFields (("type", V.str (Equal.typ x.cls)) :: ("uids", uidsDict (sortUids x.uids)) :: (((eargs x.cls).map EArg.name).zip ws ++ part)),
      dec (loadAndIndex env true) (tree (fun _ => .none) e.2) st = .ok (tr .ref (readLink env true st) e.2, st) := by
    intro e he
    obtain ⟨h1, h2, h3⟩ := hfs e (hpp.mem_iff.1 he)
    exact dec_tree env true st .ref _ e.2 h1 h2 h3
  have e1 : (("type", V.str (Equal.typ x.cls)) :: onSnd (tree fun _ => .none) (("uids", uidsDict (sortUids x.uids)) :: (((eargs x.cls).map EArg.name).zip ws ++ part))) =
      onSnd (tree fun _ => .none) (("type", V.str (Equal.typ x.cls)) :: ("uids", uidsDict (sortUids x.uids)) :: (((eargs x.cls).map EArg.name).zip ws ++ part)) := by
    simp [onSnd, tree]
  unfold recordTree at hdec ⊢
  simp only [loaded] at hdec ⊢
  rw [hd] at hdec ⊢
  simp only [List.tail_cons] at hdec ⊢
  rw [e1, onSnd_sort] at hdec ⊢
  rw [dec_mkDict (loadAndIndex env true) st (tree fun _ => .none) (tr .ref (readLink env true st)) _ hd'] at hdec
  rw [calls_mkDict (tree fun _ => .none) (tr .ref (readLink env true st)) hd']
  have hty2 : Dict.get? (onSnd (tr .ref (readLink env true st)) (sortFields (("type", V.str (Equal.typ x.cls)) :: ("uids", uidsDict (sortUids x.uids)) ::
      (((eargs x.cls).map EArg.name).zip ws ++ part)))) "type" ≠ some (.str "link_by_uid") := by
    have hne : ∀ c : ECls, ¬ Equal.typ c = "link_by_uid" := by intro c; cases c <;> decide +kernel
    have hpn : part.map Prod.fst = if x.cls = .ingredientRun then ["name", "labels"] else [] := by
      rw [← hpt]; split <;> rfl
    have hfst : (("type", V.str (Equal.typ x.cls)) :: ("uids", uidsDict (sortUids x.uids)) :: (((eargs x.cls).map EArg.name).zip ws ++ part)).map Prod.fst =
        "type" :: "uids" :: ((eargs x.cls).map EArg.name ++ if x.cls = .ingredientRun then ["name", "labels"] else []) := by
      rw [List.map_cons, List.map_cons, List.map_append, hpn, List.map_fst_zip (by simp [hlw])]
    have hnd : ("type" :: "uids" :: ((eargs x.cls).map EArg.name ++ if x.cls = .ingredientRun then ["name", "labels"] else [])).Nodup := by
      cases x.cls <;> decide +kernel
    rw [← hfst] at hnd
    rw [get?_onSnd, get?_perm hpp ((hpp.map Prod.fst).nodup_iff.2 hnd)]
    simp [Dict.get?, tr, hne]
  have hguard : guard J l m (.ref L[j]) = guard J l st'.mem (.ref (base + j)) := by
    apply guard_pair hJ (Loaded.mirror hS hget hI')
    refine ⟨?_, ?_, ?_⟩
    · simp only [Substitute.alike, place]
      rw [idx_get hS.nodup hj]
    · intro p hp
      simp [V.subs] at hp
      exact ⟨j, hj, by omega, hp.symm⟩
    · intro s i hi
      simp [V.subs] at hi
  rw [hguard]
  apply and_congr
  · constructor
    · intro h v hv
      obtain ⟨i, hi, rfl⟩ := List.getElem_of_mem hv
      have hin : ((eargs x.cls)[i].name, ws[i]) ∈ ((eargs x.cls).map EArg.name).zip ws := by
        rw [List.zip_map_left]
        exact List.mem_map.2 ⟨((eargs x.cls)[i], ws[i]), zip_nth (by omega) (by omega), rfl⟩
      exact (hcalls i hi (by omega)).1 (h _ (hpp.mem_iff.2 (List.mem_cons_of_mem _ (List.mem_cons_of_mem _ (List.mem_append_left _ hin)))))
    · intro h e he
      have he := hpp.mem_iff.1 he
      rcases List.mem_cons.1 he with rfl | he
      · simp [tree, Calls]
      rcases List.mem_cons.1 he with rfl | he
      · rw [calls_tree (f := .ref) _ hucl.wf hucl.noRef huok, tr_uids]
        exact pass_sorted _
      · rcases List.mem_append.1 he with he | he
        · have h1 := (List.of_mem_zip (a := e.1) (b := e.2) he).2
          obtain ⟨i, hi, e'⟩ := List.getElem_of_mem h1
          rw [← e']
          exact (hcalls i (by omega) hi).2 (h _ (List.getElem_mem _))
        · obtain ⟨⟨h1, h2⟩, h3⟩ := hpc e he
          rw [calls_tree (f := .ref) _ h1.wf h1.noRef (by rw [h2]; exact h1.ok), h2]
          exact h3 _
  · constructor
    · intro h
      exact h _ _ hdec hty2
    · intro h r s' e
      rw [hdec] at e
      simp only [Except.ok.injEq, Prod.mk.injEq] at e
      obtain ⟨rfl, rfl⟩ := e
      exact fun _ => h

/-- what is asked of an entity: the objects among its attributes and itself pass -/
def PassE (env : Env) (J : Judge) (l : Level) (M m : Mem) (o : Nat) : Prop := ∀ x vals own, M[o]? = some x → Shape env M x vals own →
  (∀ v ∈ vals, PassV (fun u => guard J l m u = .ok ()) v) ∧ guard J l m (.ref o) = .ok ()

theorem records_calls (hJ : Fair env.lower J) (hS : Source env M f L) (hget : ∀ o ∈ L, M[o]? = m[o]?) (m2 : Mem) (l : Level) (ys : List EObj) (hl : ys.length = L.length)
    (hy : ∀ k (h1 : k < L.length) (h2 : k < ys.length), ∃ x, M[L[k]]? = some x ∧ Copy env M f x ys[k]) :
    ∀ n j st, j + n = L.length → Loaded env M L base j st →
      (CallsL (loadAndIndex env true) (Passes J l) ((ys.drop j).map (recordTree m2)) st ↔ ∀ k (h : k < L.length), j ≤ k → PassE env J l M m L[k]) := by
  intro n
  induction n with
  | zero =>
    intro j st hj hI
    rw [List.drop_eq_nil_of_le (by omega)]
    simp only [List.map_nil, CallsL, true_iff]
    intro k h1 h2
    omega
  | succ n ih =>
    intro j st hj hI
    obtain ⟨x, hx, hc⟩ := hy j (by omega) (by omega)
    obtain ⟨st1, h1, h2⟩ := load_step hS hI (by omega) hx hc m2
    obtain ⟨vals, own, hs, _⟩ := hS.typed _ x hx
    rw [List.drop_eq_getElem_cons (by omega)]
    simp only [List.map_cons, CallsL, h1, Except.ok.injEq, Prod.mk.injEq]
    rw [record_calls hJ hS hget hI (by omega) hx hc m2 l hs]
    have ih := ih (j + 1) st1 (by omega) h2
    constructor
    · rintro ⟨h3, h4⟩ k hk hjk
      have h4 := ih.1 (h4 _ _ ⟨rfl, rfl⟩)
      by_cases e : j = k
      · subst e
        intro x' vals' own' hx' hs'
        rw [hx] at hx'
        cases hx'
        obtain ⟨rfl, rfl⟩ := Shape.unique hs hs'
        exact h3
      · exact h4 k hk (by omega)
    · intro h
      refine ⟨h j (by omega) (Nat.le_refl _) x vals own hx hs, ?_⟩
      rintro w s' ⟨rfl, rfl⟩
      exact ih.2 (fun k hk hjk => h k hk (by omega))

/-- reading a written context runs the checks of everything in it -/
theorem context_calls (hJ : Fair env.lower J) (hS : Source env M f L) (hget : ∀ o ∈ L, M[o]? = m[o]?) (l : Level) {obj w : V} {ys : List EObj} (hl : ys.length = L.length)
    (hy : ∀ k (h1 : k < L.length) (h2 : k < ys.length), ∃ x, M[L[k]]? = some x ∧ Copy env M f x ys[k])
    (hv : wf obj) (ht : noTuple obj) (ho : okV env M obj) (hr : ∀ p, V.ref p ∈ obj.subs → p ∈ L)
    (hf : ∀ s i, V.link s i ∈ obj.subs → ∀ p ∈ L, ¬ Carries env.lower M p (env.lower s) i) (hw : Output env M f obj w) (M0 : Mem) :
    Calls (loadAndIndex env true) (Passes J l) (mkDict [("context", .list (ys.map (recordTree M))), ("object", tree (fun _ => .none) w)]) { mem := M0, index := [] } ↔
      (∀ o ∈ L, PassE env J l M m o) ∧ PassV (fun u => guard J l m u = .ok ()) obj := by
  obtain ⟨ws, st, h1, h2⟩ := load_from hS M ys hl hy L.length 0 { mem := M0, index := [] } (by omega) (loaded_zero M0)
  have hrec := records_calls hJ hS hget M l ys hl hy L.length 0 { mem := M0, index := [] } (by omega) (loaded_zero M0)
  simp only [List.drop_zero] at h1 hrec
  have hobj := Loaded.calls hJ hS hget h2 l hv ht ho (fun p hp => by
    obtain ⟨b, hb, e⟩ := List.getElem_of_mem (hr p hp)
    exact ⟨b, hb, hb, e⟩) hf hw.clean hw.eq
  have e8 : strings [V.str "context", .str "object"] = some ["context", "object"] := by rfl
  simp only [mkDict, List.map_cons, List.map_nil, Calls, CallsL, dec, h1, Except.ok.injEq, Prod.mk.injEq, hrec, e8, Option.some.injEq]
  constructor
  · rintro ⟨⟨h3, h4⟩, _⟩
    refine ⟨?_, hobj.1 (h4 _ _ ⟨rfl, rfl⟩).1⟩
    intro o ho
    obtain ⟨k, hk, rfl⟩ := List.getElem_of_mem ho
    exact h3 k hk (Nat.zero_le _)
  · rintro ⟨h3, h4⟩
    refine ⟨⟨fun k hk _ => h3 _ (List.getElem_mem hk), ?_⟩, ?_⟩
    · rintro w' s' ⟨rfl, rfl⟩
      exact ⟨hobj.2 h4, fun _ _ _ => trivial⟩
    · rintro names vs' s' r s'' rfl e1 e2 h
      obtain ⟨a, b, rfl⟩ : ∃ a b, vs' = [a, b] := by
        simp only [decs, dec, h1] at e1
        cases e : dec (loadAndIndex env true) (tree (fun _ => .none) w) st with
        | error _ => simp [e] at e1
        | ok p => simp [e] at e1; exact ⟨_, _, e1.1.symm⟩
      have e9 : Dict.get? [("context", a), ("object", b)] "type" = none := by simp [Dict.get?]
      simp only [List.zip_cons_cons, List.zip_nil_left, loadAndIndex, e9, Except.ok.injEq, Prod.mk.injEq] at e2
      obtain ⟨rfl, rfl⟩ := e2
      simp [mkDict, guard]

end

end Verif.Checked
