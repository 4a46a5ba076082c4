import Verif.Props.Reload
import Verif.Props.FlattenProps
/-!
# C43: `loads(dumps(x))`
-/

set_option linter.unusedSimpArgs false
set_option linter.unusedVariables false
set_option linter.unusedSectionVars false

namespace Verif.Substitute
open Verif.Py Verif.Value Verif.Schema Verif.Json Verif.Traverse

/-! ## Reading all records -/

section
variable {env : Env} {M : Mem} {f : Nat → V} {L : List Nat} {base : Nat}

theorem load_from (hS : Source env M f L) (m2 : Mem) (ys : List EObj) (hl : ys.length = L.length)
    (hy : ∀ k (h1 : k < L.length) (h2 : k < ys.length), ∃ x, M[L[k]]? = some x ∧ Copy env M f x ys[k]) :
    ∀ n j st, j + n = L.length → Loaded env M L base j st →
      ∃ ws st', decs (loadAndIndex env true) ((ys.drop j).map (recordTree m2)) st = .ok (ws, st') ∧ Loaded env M L base L.length st' := by
  intro n
  induction n with
  | zero =>
    intro j st hj hI
    refine ⟨[], st, ?_, ?_⟩
    · rw [List.drop_eq_nil_of_le (by omega)]; rfl
    · rw [← hj]; exact hI
  | succ n ih =>
    intro j st hj hI
    obtain ⟨x, hx, hc⟩ := hy j (by omega) (by omega)
    obtain ⟨st1, h1, h2⟩ := load_step hS hI (by omega) hx hc m2
    obtain ⟨ws, st2, h3, h4⟩ := ih (j + 1) st1 (by omega) h2
    refine ⟨.ref (base + j) :: ws, st2, ?_, h4⟩
    rw [List.drop_eq_getElem_cons (by omega)]
    simp only [List.map_cons, decs, h1, h3]

theorem loaded_zero (M0 : Mem) : Loaded env M L M0.length 0 { mem := M0, index := [] } := by
  refine ⟨rfl, ?_, ?_⟩
  · intro k _ h; omega
  · intro s i q
    simp only [Dict.get?_nil]
    constructor
    · intro h; cases h
    · rintro ⟨_, _, h, _⟩; omega

/-! ## What the images look like -/

theorem Shape.unique {m m' : Mem} {x : EObj} {v1 v2 : List V} {o1 o2 : List (String × V)} (h1 : Shape env m x v1 o1) (h2 : Shape env m' x v2 o2) :
    v1 = v2 ∧ o1 = o2 := by
  have e := h1.fields.symm.trans h2.fields
  obtain ⟨e1, e2⟩ := List.append_inj e (by simp [h1.len, h2.len])
  refine ⟨?_, e2⟩
  have := congrArg (List.map Prod.snd) e1
  rwa [List.map_snd_zip (by simp [h1.len]), List.map_snd_zip (by simp [h2.len])] at this

/-- an attribute of the image that is an argument of the constructor -/
theorem image_attr {m' : Mem} {F : Nat → V} {x z : EObj} {vals us : List V} {own own' : List (String × V)} (hs : Shape env M x vals own)
    (hz : Shape env m' z us own') (hc : z.cls = x.cls) (hnf : us.map nf = (vals.map (tr F .link)).map nf) {a : EArg} (ha : a ∈ eargs x.cls) :
    ∃ v u, Dict.get? x.fields a.attr = some v ∧ Dict.get? z.fields a.attr = some u ∧ nf u = nf (tr F .link v) ∧ u ∈ us ∧
      (∃ b ∈ eargs x.cls, b.attr = a.attr ∧ (b.name, v) ∈ asDict M x) := by
  have hl := hz.len
  rw [hc] at hl
  obtain ⟨i, i1, i2, i3, e1, e2, e3⟩ := zip_same (as := (eargs x.cls).map EArg.attr) (vs := vals) (us := us) (by simpa using hs.len) (by simpa using hl)
    (List.mem_map.2 ⟨a, ha, rfl⟩)
  have i1' : i < (eargs x.cls).length := by simpa using i1
  refine ⟨vals[i], us[i], ?_, ?_, ?_, List.getElem_mem _, (eargs x.cls)[i], List.getElem_mem i1', by simpa using e1, ?_⟩
  · rw [hs.fields, get?_append, e2]; rfl
  · rw [hz.fields, hc, get?_append, e3]; rfl
  · have := map_nth hnf i i3 (by simpa using i2)
    simpa using this
  · rw [asDict_eq hs M]
    apply List.mem_cons_of_mem
    apply List.mem_cons_of_mem
    apply List.mem_append_left
    rw [List.zip_map_left]
    exact List.mem_map.2 ⟨((eargs x.cls)[i], vals[i]), zip_nth i1' i2, rfl⟩

/-- the name and labels of an ingredient run are as before -/
theorem image_getattr (hS : Source env M f L) {st : Loading} (hI : Loaded env M L base L.length st) {k : Nat} (hk : k < L.length) {x z : EObj}
    (hx : M[L[k]]? = some x) {vals us : List V} {own own' : List (String × V)} (hs : Shape env M x vals own)
    (hz : Shape env st.mem z us own') (hc : z.cls = x.cls) (hnf : us.map nf = (vals.map (tr (imageOf base L) .link)).map nf)
    (hi : x.cls = .ingredientRun) {a : String} (ha : a = "_name" ∨ a = "_labels") (v v0 : V) (hv : v = getattr M x (a, v0)) (hlike : nameLike v ∨ labelsLike v) :
    getattr st.mem z (a, v) = v := by
  have hspec : ∃ e ∈ eargs x.cls, e.attr = "_spec" := by rw [hi]; decide +kernel
  obtain ⟨e, he, hattr⟩ := hspec
  obtain ⟨sv, su, g1, g2, g3, g4, b, hb, hba, hmem⟩ := image_attr hs hz hc hnf he
  rw [hattr] at g1 g2
  unfold Schema.getattr
  split
  · rw [g2]
    cases su with
    | ref q =>
      simp only
      have : tr (imageOf base L) .link sv = .ref q := nf_pointer trivial g3.symm
      obtain ⟨p, hp, hF⟩ := tr_ref_inv this
      subst hp
      obtain ⟨c, hcl, _, rfl⟩ := hS.refs k hk x hx _ hmem p (self_mem_subs _)
      rw [imageOf_get hS.nodup hcl] at hF
      cases hF
      obtain ⟨y, zy, hy, hzy, valsy, owny, usy, nmy, lby, b1, _, _, _, b5, _, b7, b8, b9⟩ := hI.image c hcl hcl
      rw [hzy]
      simp only [b5]
      split
      · rename_i hy1
        have hk1 : ∃ e ∈ eargs y.cls, e.attr = a := by
          rw [hy1]
          rcases ha with rfl | rfl <;> decide +kernel
        obtain ⟨e2, he2, hattr2⟩ := hk1
        obtain ⟨v1, u1, k1, k2, k3, k4, _⟩ := image_attr b1 b7 b5 b8 he2
        rw [hattr2] at k1 k2
        have hv1 : v = v1 := by
          rw [hv]
          unfold Schema.getattr
          simp only
          rw [if_pos ⟨hi, ha⟩, g1]
          simp only [hy, hy1, if_true, k1, Option.getD_some]
        rw [k2]
        simp only [Option.getD_some]
        subst hv1
        rcases hlike with h | h
        · exact nameLike_out h k3
        · exact labelsLike_out h (b9 _ k4).2 k3
      · rfl
    | _ => rfl
  · rfl

/-- the image of an entity looks like the entity -/
theorem image_asDict (hS : Source env M f L) {st : Loading} (hI : Loaded env M L base L.length st) {k : Nat} (hk : k < L.length) {x z : EObj}
    (hx : M[L[k]]? = some x) {os : List Nat} (hi : Image env M (imageOf base L) os st.mem L[k] x z) :
    z.cls = x.cls ∧ z.uids.Perm x.uids ∧ (asDict st.mem z).map Prod.fst = (asDict M x).map Prod.fst ∧
      alikes (fun o w => w = imageOf base L o) SameLink ((asDict M x).map Prod.snd) ((asDict st.mem z).map Prod.snd) ∧
      ∀ v ∈ (asDict st.mem z).map Prod.snd, wf v ∧ noTuple v := by
  obtain ⟨vals, own, us, name, labels, hs, hname, hlabels, hpart, hc, hu, hz, hnf, hus⟩ := hi
  have hd := asDict_eq hs M
  have hdz := asDict_eq hz st.mem
  have hpl := hS.plain _ (List.getElem_mem hk) x hx
  have hty : "type" ∉ x.uids.map Prod.fst := noType_uids (hpl ("uids", uidsDict x.uids) (by rw [hd]; simp)).1
  have hz1 : ingredientPart st.mem z (ownAt M (imageOf base L) os x.cls L[k] name labels) = ingredientPart M x own := by
    by_cases hi : x.cls = .ingredientRun
    · have hpart' := hpart
      rw [hpart, if_pos hi]
      have e1 : Equal.lstrip "_name" = "name" := by decide +kernel
      have e2 : Equal.lstrip "_labels" = "labels" := by decide +kernel
      have hown := hs.own
      rw [hi, ownFields_ingredient.1] at hown
      match own, hown with
      | [(a, nm), (b, lb)], hown =>
        simp only [List.map_cons, List.map_nil, List.cons.injEq, and_true] at hown
        obtain ⟨rfl, rfl⟩ := hown
        unfold ingredientPart at hpart'
        rw [if_pos hi, if_pos hi] at hpart'
        simp only [List.map_cons, List.map_nil, e1, e2, List.cons.injEq, Prod.mk.injEq, true_and, and_true] at hpart'
        unfold ingredientPart ownAt
        rw [if_pos (hc.trans hi), if_pos hi]
        simp only [List.map_cons, List.map_nil, e1, e2]
        rw [image_getattr hS hI hk hx hs hz hc hnf hi (.inl rfl) name nm hpart'.1.symm (.inl hname),
          image_getattr hS hI hk hx hs hz hc hnf hi (.inr rfl) labels lb hpart'.2.symm (.inr hlabels)]
    · unfold ingredientPart
      rw [if_neg hi, if_neg (fun h => hi (hc.symm.trans h))]
  rw [hz1] at hdz
  have hul := hz.len
  rw [hc] at hul
  have hpc : ∀ e ∈ ingredientPart M x own, Clean env st.mem e.2 ∧ ∀ g : Nat → V, ∀ g', tr g g' e.2 = e.2 := by
    intro e he
    rw [hpart] at he
    split at he
    · simp only [List.mem_cons, List.not_mem_nil, or_false] at he
      rcases he with rfl | rfl
      · exact nameLike_clean hname
      · exact labelsLike_clean hlabels
    · simp at he
  have hperm : z.uids.Perm x.uids := by rw [hu]; exact (sortUids_perm _).trans (sortUids_perm _)
  have hplain : ∀ v ∈ (asDict st.mem z).map Prod.snd, wf v ∧ noTuple v := by
    have hcl : Clean env st.mem (uidsDict z.uids) := by
      refine wf_uids _ hz.uids ?_
      intro h
      exact hty ((hperm.map Prod.fst).mem_iff.1 h)
    rw [hdz]
    simp only [List.map_cons, List.map_append, List.mem_cons, List.mem_append]
    rw [List.map_snd_zip (by rw [List.length_map, hc, hul]; exact Nat.le_refl _)]
    rintro v (rfl | rfl | h | h)
    · simp [wf, noTuple]
    · exact ⟨hcl.wf, hcl.noTuple⟩
    · exact hus v h
    · obtain ⟨e, he, rfl⟩ := List.mem_map.1 h
      exact ⟨(hpc e he).1.wf, (hpc e he).1.noTuple⟩
  refine ⟨hc, hperm, ?_, ?_, hplain⟩
  · rw [hd, hdz, hc]
    simp only [List.map_cons, List.map_append]
    rw [List.map_fst_zip (by rw [List.length_map, hul]; exact Nat.le_refl _), List.map_fst_zip (by rw [List.length_map, hs.len]; exact Nat.le_refl _)]
  · have key := alikes_nf (f := imageOf base L) (g := .link) ((asDict M x).map Prod.snd) ((asDict st.mem z).map Prod.snd)
      (by rw [wfs_iff]; intro v hv; obtain ⟨e, he, rfl⟩ := List.mem_map.1 hv; exact (hpl e he).1)
      (by rw [noTuples_iff]; intro v hv; obtain ⟨e, he, rfl⟩ := List.mem_map.1 hv; exact (hpl e he).2) ?_ ?_
      (fun o _ => by unfold imageOf; trivial) (fun s i _ => trivial) ?_
    · exact alikes_mono _ _ (fun o w _ h => h) (fun s i w _ h => h) key
    · rw [wfs_iff]; exact fun v hv => (hplain v hv).1
    · rw [noTuples_iff]; exact fun v hv => (hplain v hv).2
    · rw [hd, hdz]
      simp only [List.map_cons, List.map_append]
      rw [List.map_snd_zip (by rw [List.length_map, hc, hul]; exact Nat.le_refl _), List.map_snd_zip (by rw [List.length_map, hs.len]; exact Nat.le_refl _), hnf, hc]
      congr 1
      congr 1
      · rw [hu, nf_uids, nf_uids, tr_uids (imageOf base L) .link, ← tr_uids .ref .link, nf_tr _ (hpl ("uids", uidsDict x.uids) (by rw [hd]; simp)).1]
      · congr 1
        simp only [List.map_map]
        apply List.map_congr_left
        intro e he
        simp only [Function.comp]
        rw [(hpc e he).2]

/-! ## Writing -/

/-- the record of a stripped copy -/
theorem enc_copy {x y : EObj} (hpl : ∀ e ∈ asDict M x, wf e.2 ∧ noTuple e.2) (hy : Copy env M f x y) {m2 : Mem} {p : Nat} (hp : m2[p]? = some y) (k : Nat) :
    encRef m2 (k + 1) p = .ok (recordTree m2 y) := by
  obtain ⟨vals, own, ws, name, labels, hs, rfl, hlw, hnf, hclean, hconv, hname, hlabels, hpart⟩ := hy
  have hdx := asDict_eq hs M
  have hty : "type" ∉ x.uids.map Prod.fst := noType_uids (hpl ("uids", uidsDict x.uids) (by rw [hdx]; simp)).1
  have hty' : "type" ∉ (sortUids x.uids).map Prod.fst := fun h => hty (((sortUids_perm x.uids).map Prod.fst).mem_iff.1 h)
  have hcl' : clash env.lower ((sortUids x.uids).map Prod.fst) = false := clash_perm env.lower ((sortUids_perm x.uids).map Prod.fst).symm hs.uids
  have hshape := copy_shape (Grows.refl M) hs.uids hlw hclean hconv name labels
  have hd := asDict_eq hshape m2
  rw [copy_part hlw (fun w hw p e => by have := (hclean w hw).noRef; rw [e] at this; simp [noRef] at this)] at hd
  have hall : ∀ e ∈ (asDict m2 (loaded x.cls (sortUids x.uids) ws name labels)).tail, wf e.2 ∧ noRef e.2 := by
    rw [hd]
    simp only [loaded, List.tail_cons, List.mem_cons, List.mem_append]
    rintro e (rfl | h | h)
    · have : Clean env M (uidsDict (sortUids x.uids)) := wf_uids _ hcl' hty'
      exact ⟨this.wf, this.noRef⟩
    · have := hclean _ (List.of_mem_zip (a := e.1) (b := e.2) h).2
      exact ⟨this.wf, this.noRef⟩
    · split at h
      · simp only [List.mem_cons, List.not_mem_nil, or_false] at h
        rcases h with rfl | rfl
        · have := (nameLike_clean (env := env) (m := M) hname).1; exact ⟨this.wf, this.noRef⟩
        · have := (labelsLike_clean (env := env) (m := M) hlabels).1; exact ⟨this.wf, this.noRef⟩
      · simp at h
  have hd2 : asDict m2 (loaded x.cls (sortUids x.uids) ws name labels) =
      ("type", .str (Equal.typ (loaded x.cls (sortUids x.uids) ws name labels).cls)) :: (asDict m2 (loaded x.cls (sortUids x.uids) ws name labels)).tail := by
    rw [hd]; rfl
  unfold encRef recordTree
  rw [hp]
  simp only
  generalize asDict m2 (loaded x.cls (sortUids x.uids) ws name labels) = d at *
  generalize Equal.typ (loaded x.cls (sortUids x.uids) ws name labels).cls = t at *
  generalize d.tail = fs at *
  subst hd2
  have h1 : encs (encRef m2 k) (fs.map Prod.snd) = .ok (trees (fun _ => .none) (fs.map Prod.snd)) := by
    apply encs_trees
    · rw [wfs_iff]; simp only [List.mem_map]; rintro v ⟨e, he, rfl⟩; exact (hall e he).1
    · rw [noRefs_iff]; simp only [List.mem_map]; rintro v ⟨e, he, rfl⟩; exact (hall e he).2
  simp only [List.map_cons, encs, enc, h1, List.zip_cons_cons]
  rw [trees_eq, ← onSnd_zip, zip_fst_snd]

theorem encs_copies {m2 : Mem} (ps : List Nat) (ys : List EObj) (hl : ps.length = ys.length) (k : Nat)
    (h : ∀ i (h1 : i < ps.length) (h2 : i < ys.length), encRef m2 k ps[i] = .ok (recordTree m2 ys[i])) :
    encs (encRef m2 k) (ps.map .ref) = .ok (ys.map (recordTree m2)) := by
  induction ps generalizing ys with
  | nil => cases ys with
    | nil => rfl
    | cons _ _ => simp at hl
  | cons p ps ih => cases ys with
    | nil => simp at hl
    | cons y ys =>
      have h0 := h 0 (by simp) (by simp)
      simp only [List.getElem_cons_zero] at h0
      have := ih ys (by simpa using hl) (fun i h1 h2 => by
        have := h (i + 1) (by simp; omega) (by simp; omega)
        simpa using this)
      simp only [List.map_cons, encs, enc, h0, this]

/-- what `dumps` writes, once there is a flat list -/
theorem write_context {obj : V} {ps : List Nat} {ys : List EObj} (hl : ps.length = ys.length)
    (hI : Input env M none true (mkDict [("object", obj)]) f obj)
    (h : ∀ i (h1 : i < ps.length) (h2 : i < ys.length), M[ps[i]]? = some ys[i] ∧ ∃ x, (∀ e ∈ asDict M x, wf e.2 ∧ noTuple e.2) ∧ Copy env M f x ys[i]) :
    ∃ w, writeContext env M (mkDict [("object", obj)]) (ps.map .ref) =
        .ok (mkDict [("context", .list (ys.map (recordTree M))), ("object", tree (fun _ => .none) w)], M) ∧ Output env M f obj w := by
  obtain ⟨w, st', h1, h2, _, h4⟩ := sub_links (expandE env (linkRepl env.lower none true (mkDict [("object", obj)])) 1) obj hI { visited := [], mem := M } rfl (Vis.nil _)
  refine ⟨w, ?_, h4⟩
  have hs : substituteLinks env none true M (mkDict [("object", obj)]) = .ok (.dict [.str "object"] [w], M) := by
    unfold substituteLinks substitute
    simp only [mkDict, List.map_cons, List.map_nil, sub, subList] at h1 ⊢
    simp only [h1, h2]
  have he := encs_copies ps ys hl (M.length + 1) (m2 := M) (fun i h1 h2 => by
    obtain ⟨hp, x, hx, hc⟩ := h i h1 h2
    exact enc_copy hx hc hp _)
  have hw := enc_tree (encRef M (M.length + 1)) (fun _ => .none) w h4.clean.wf h4.clean.noRef
  unfold writeContext
  rw [hs]
  have e1 : strings [V.str "object", .str "context"] = some ["object", "context"] := by rfl
  have e2 : ∀ a b : V, sortFields [("object", a), ("context", b)] = [("context", b), ("object", a)] := by
    intro a b
    have : ¬ ("object" ≤ "context") := by decide +kernel
    simp [sortFields, insertField, this]
  simp only [List.cons_append, List.nil_append, rawDumps, enc, encs, e1, hw, he, List.zip_cons_cons, List.zip_nil_left, e2]

/-- what `loads` makes of it -/
theorem read_context (hS : Source env M f L) {obj w : V} {ys : List EObj} (hl : ys.length = L.length)
    (hy : ∀ k (h1 : k < L.length) (h2 : k < ys.length), ∃ x, M[L[k]]? = some x ∧ Copy env M f x ys[k])
    (hv : wf obj) (ht : noTuple obj) (ho : okV env M obj) (hr : ∀ p, V.ref p ∈ obj.subs → p ∈ L)
    (hf : ∀ s i, V.link s i ∈ obj.subs → ∀ p ∈ L, ¬ Carries env.lower M p (env.lower s) i) (hw : Output env M f obj w) (M0 : Mem) :
    ∃ r st, loads env M0 (mkDict [("context", .list (ys.map (recordTree M))), ("object", tree (fun _ => .none) w)]) = .ok (r, st.mem) ∧
      Loaded env M L M0.length L.length st ∧ wf r ∧ noTuple r ∧ nf r = nf (tr (imageOf M0.length L) .link obj) := by
  obtain ⟨ws, st, h1, h2⟩ := load_from hS M ys hl hy L.length 0 { mem := M0, index := [] } (by omega) (loaded_zero M0)
  simp only [List.drop_zero] at h1
  obtain ⟨e1, e2, e3, e4, e5, e6, e7⟩ := h2.value hS hv ht ho (fun p hp => by
    obtain ⟨b, hb, e⟩ := List.getElem_of_mem (hr p hp)
    exact ⟨b, hb, hb, e⟩) hf hw.clean hw.eq
  have h3 := dec_tree env true st .ref (fun _ => .none) w hw.clean.wf hw.clean.noRef e2
  refine ⟨_, st, ?_, h2, e6, e7, e1⟩
  have e8 : strings [V.str "context", .str "object"] = some ["context", "object"] := by rfl
  have e9 : Dict.get? [("context", V.list ws), ("object", tr .ref (readLink env true st) w)] "type" = none := by
    simp [Dict.get?]
  unfold loads
  simp only [mkDict, List.map_cons, List.map_nil, dec, decs, e8, h1, h3, List.zip_cons_cons, List.zip_nil_left, loadAndIndex, e9]
  simp [e8, Dict.get?]

end

/-! ## The graph that comes back -/

/-- `a` points at `b`, and `b` is to know about that in its attribute `n` -/
inductive Points (m : Mem) : String → Nat → Nat → Prop where
  | output {a b : Nat} {x : EObj} : m[a]? = some x → x.cls = .materialRun ∨ x.cls = .materialSpec → Dict.get? x.fields "_process" = some (.ref b) →
      Points m "_output_material" a b
  | ingredient {a b : Nat} {x : EObj} : m[a]? = some x → x.cls = .ingredientRun ∨ x.cls = .ingredientSpec → Dict.get? x.fields "_process" = some (.ref b) →
      Points m "_ingredients" a b
  | measurement {a b : Nat} {x : EObj} : m[a]? = some x → x.cls = .measurementRun → Dict.get? x.fields "_material" = some (.ref b) →
      Points m "_measurements" a b

theorem points_iff {m : Mem} {n : String} {a b : Nat} : pointsBack m n a b = true ↔ Points m n a b := by
  cases hx : m[a]? with
  | none =>
    simp only [pointsBack, hx]
    constructor
    · intro h; cases h
    · intro h; cases h <;> simp_all
  | some x =>
    rw [pointsBack_iff hx]
    constructor
    · rintro ⟨there, h1, h2⟩
      cases hc : x.cls <;> simp [hc, backRef] at h1 <;> obtain ⟨rfl, rfl⟩ := h1
      · exact .output hx (.inr hc) h2
      · exact .ingredient hx (.inr hc) h2
      · exact .output hx (.inl hc) h2
      · exact .ingredient hx (.inl hc) h2
      · exact .measurement hx hc h2
    · intro h
      cases h with
      | output h1 h2 h3 =>
        rw [hx] at h1; cases h1
        exact ⟨"_process", by rcases h2 with h | h <;> simp [h, backRef], h3⟩
      | ingredient h1 h2 h3 =>
        rw [hx] at h1; cases h1
        exact ⟨"_process", by rcases h2 with h | h <;> simp [h, backRef], h3⟩
      | measurement h1 h2 h3 =>
        rw [hx] at h1; cases h1
        exact ⟨"_material", by simp [h2, backRef], h3⟩

/-- the value of the attribute `n` of `b` names those in reach that point at `b`, each once -/
inductive Names (m : Mem) (root : V) (n : String) (b : Nat) : V → Prop where
  | none : n = "_output_material" → (∀ a, Reachable m false root (.ref a) → ¬ Points m n a b) → Names m root n b .none
  | one (a : Nat) : n = "_output_material" → Points m n a b → (∀ c, Reachable m false root (.ref c) → Points m n c b → c = a) → Names m root n b (.ref a)
  | many (as : List Nat) : n ≠ "_output_material" → as.Nodup → (∀ a ∈ as, Points m n a b) → (∀ a, Reachable m false root (.ref a) → Points m n a b → a ∈ as) →
      Names m root n b (.list (as.map .ref))

/-- Every back-link in reach is up to date: it names those in reach that point at the entity. -/
def BackLinked (m : Mem) (root : V) : Prop := ∀ b x, m[b]? = some x → Reachable m false root (.ref b) → ∀ n ∈ backNames, ∀ v,
  Dict.get? x.fields n = some v → Names m root n b v

/-- No two entities in reach share an id. Scopes are compared as `loads` compares them. -/
def Unambiguous (lower : String → String) (m : Mem) (root : V) : Prop := ∀ o p s i, Reachable m false root (.ref o) → Reachable m false root (.ref p) →
  Carries lower m o s i → Carries lower m p s i → o = p

/-- No link in reach means an entity in reach. -/
def Foreign (lower : String → String) (m : Mem) (root : V) : Prop := ∀ s i p, Reachable m false root (.link s i) → Reachable m false root (.ref p) →
  ¬ Carries lower m p (lower s) i

/-- the same back-link: the order of those named does not matter -/
inductive SameBack (φ : Nat → Nat) : Option V → Option V → Prop where
  | absent : SameBack φ none none
  | none : SameBack φ (some .none) (some .none)
  | one (a : Nat) : SameBack φ (some (.ref a)) (some (.ref (φ a)))
  | many (as bs : List Nat) : bs.Perm (as.map φ) → SameBack φ (some (.list (as.map .ref))) (some (.list (bs.map .ref)))

/-- `φ` takes the entities in reach of `v` in `m` to those in reach of `w` in `m'`, and everything that can be seen of them is the same: class, ids,
attributes (as in `as_dict()`, with entities replaced by their images) and back-links. -/
structure Iso (m : Mem) (v : V) (m' : Mem) (w : V) (φ : Nat → Nat) : Prop where
  root : alike (fun o u => u = .ref (φ o)) SameLink v w
  inj : ∀ o p, Reachable m false v (.ref o) → Reachable m false v (.ref p) → φ o = φ p → o = p
  node : ∀ o x, m[o]? = some x → Reachable m false v (.ref o) → ∃ z, m'[φ o]? = some z ∧ z.cls = x.cls ∧ z.uids.Perm x.uids ∧
    (asDict m' z).map Prod.fst = (asDict m x).map Prod.fst ∧
    alikes (fun o u => u = .ref (φ o)) SameLink ((asDict m x).map Prod.snd) ((asDict m' z).map Prod.snd) ∧
    ∀ n ∈ backNames, SameBack φ (Dict.get? x.fields n) (Dict.get? z.fields n)
  onto : ∀ q, Reachable m' false w (.ref q) → ∃ o, Reachable m false v (.ref o) ∧ q = φ o

theorem get?_mapFst (l : List (String × V)) (g : String → V) (n : String) :
    Dict.get? (l.map (fun e => (e.1, g e.1))) n = if n ∈ l.map Prod.fst then some (g n) else none := by
  induction l with
  | nil => simp [Dict.get?_nil]
  | cons e l ih =>
    simp only [List.map_cons, Dict.get?, ih]
    by_cases h : e.1 = n
    · subst h; simp
    · have h' : ¬ n = e.1 := fun e => h e.symm
      rw [if_neg h]
      by_cases h2 : n ∈ l.map Prod.fst
      · rw [if_pos h2, if_pos (List.mem_cons_of_mem _ h2)]
      · rw [if_neg h2, if_neg (by rw [List.mem_cons]; rintro (h | h); exact h' h; exact h2 h)]

theorem get?_isSome (l : List (String × V)) (n : String) : n ∈ l.map Prod.fst ↔ ∃ v, Dict.get? l n = some v := by
  induction l with
  | nil => simp [Dict.get?_nil]
  | cons e l ih =>
    simp only [List.map_cons, Dict.get?, List.mem_cons, ih]
    by_cases h : e.1 = n
    · subst h; simp
    · have h' : ¬ n = e.1 := fun e => h e.symm
      simp [h, h']

theorem get?_zip_none (ns : List String) (vs : List V) (n : String) (h : n ∉ ns) : Dict.get? (ns.zip vs) n = none := by
  rw [Dict.get?_eq_none_iff]
  intro hm
  obtain ⟨e, he, rfl⟩ := List.mem_map.1 hm
  exact h (List.of_mem_zip (a := e.1) (b := e.2) he).1

/-- the back-links of an image -/
theorem image_back {env : Env} {m M : Mem} (hM : ∀ a, a < m.length → M[a]? = m[a]?) {L : List Nat} {base : Nat} {m' : Mem} {b : Nat} {x z : EObj} (hn : L.Nodup)
    (hi : Image env M (imageOf base L) L m' b x z) {n : String} (hb : n ∈ backNames) (root : V) (hL : ∀ a, a ∈ L ↔ a < m.length ∧ Reachable m false root (.ref a))
    (hx : m[b]? = some x) (hr : Reachable m false root (.ref b)) (hN : ∀ v, Dict.get? x.fields n = some v → Names m root n b v) :
    SameBack (fun o => base + L.idxOf o) (Dict.get? x.fields n) (Dict.get? z.fields n) := by
  obtain ⟨vals, own, us, name, labels, hs, hname, hlabels, hpart, hc, hu, hz, hnf, hus⟩ := hi
  have hgx : Dict.get? x.fields n = Dict.get? own n := by
    rw [hs.fields, get?_append, get?_zip_none _ _ _ (backNames_args x.cls n hb)]; rfl
  have hgz : Dict.get? z.fields n = Dict.get? (ownAt M (imageOf base L) L x.cls b name labels) n := by
    rw [hz.fields, get?_append, get?_zip_none _ _ _ (backNames_args z.cls n hb)]; rfl
  by_cases hno : n ∈ (ownFields x.cls).map Prod.fst
  · have hc' : x.cls ≠ .ingredientRun := by
      intro e
      rw [e] at hno
      revert hno
      have : ∀ n ∈ backNames, n ∉ (ownFields .ingredientRun).map Prod.fst := by decide +kernel
      exact this n hb
    rw [← hs.own] at hno
    obtain ⟨v, hv⟩ := (get?_isSome own n).1 hno
    have hv' := hgx.trans hv
    rw [hv', hgz]
    unfold ownAt
    rw [if_neg hc', get?_mapFst _ (fun k => backVal k (backers M (imageOf base L) L k b)), if_pos (hs.own ▸ hno)]
    have hpt : ∀ a, a ∈ L.filter (fun o' => pointsBack M n o' b) ↔ Reachable m false root (.ref a) ∧ Points m n a b := by
      intro a
      have hMm : a < m.length → pointsBack M n a b = pointsBack m n a b := by
        intro h
        unfold pointsBack
        rw [hM a h]
      rw [List.mem_filter, hL, ← points_iff]
      constructor
      · rintro ⟨⟨h0, h1⟩, h2⟩; rw [hMm h0] at h2; exact ⟨h1, h2⟩
      · rintro ⟨h1, h2⟩
        have h0 : a < m.length := by
          cases points_iff.1 h2 with
          | output h _ _ => exact (List.getElem?_eq_some_iff.1 h).1
          | ingredient h _ _ => exact (List.getElem?_eq_some_iff.1 h).1
          | measurement h _ _ => exact (List.getElem?_eq_some_iff.1 h).1
        exact ⟨⟨h0, h1⟩, (hMm h0).trans h2⟩
    have hnd : (L.filter (fun o' => pointsBack M n o' b)).Nodup := hn.filter _
    unfold backVal backers
    generalize L.filter (fun o' => pointsBack M n o' b) = bs at *
    have hchild : ∀ w, Dict.get? x.fields n = some w → Reachable m false root w := fun w hw => hr.step (.field hx (Dict.mem_of_get? hw) (by simp))
    cases hN v hv' with
    | none h1 h2 =>
      rw [if_pos h1]
      have : bs = [] := List.eq_nil_iff_forall_not_mem.2 (fun a ha => h2 a ((hpt a).1 ha).1 ((hpt a).1 ha).2)
      subst this
      exact .none
    | one a h1 h2 h3 =>
      rw [if_pos h1]
      have ha : a ∈ bs := (hpt a).2 ⟨hchild _ hv', h2⟩
      have : ∀ c ∈ bs, c = a := fun c hc => h3 c ((hpt c).1 hc).1 ((hpt c).1 hc).2
      have : bs = [a] := by
        match bs, hnd, ha, this with
        | [c], _, _, h => rw [h c (by simp)]
        | c :: d :: _, hnd, _, h =>
          have e1 := h c (by simp); have e2 := h d (by simp)
          subst e1; subst e2; simp at hnd
      subst this
      exact .one a
    | many as h1 h2 h3 h4 =>
      rw [if_neg h1]
      have : bs.Perm as := by
        rw [List.perm_ext_iff_of_nodup hnd h2]
        intro a
        rw [hpt]
        constructor
        · rintro ⟨k1, k2⟩; exact h4 a k1 k2
        · intro ha
          refine ⟨(hchild _ hv').step (.list (List.mem_map_of_mem ha)), h3 a ha⟩
      have e : bs.map (imageOf base L) = (bs.map (fun o => base + L.idxOf o)).map V.ref := by simp [imageOf, Function.comp_def]
      rw [e]
      exact .many as _ (this.map _)
  · have h1 : Dict.get? own n = none := by
      rw [← hs.own] at hno
      cases h : Dict.get? own n with
      | none => rfl
      | some v => exact absurd ((get?_isSome own n).2 ⟨v, h⟩) hno
    have h2 : Dict.get? (ownAt M (imageOf base L) L x.cls b name labels) n = none := by
      have ho := hz.own
      rw [hc] at ho
      cases h : Dict.get? (ownAt M (imageOf base L) L x.cls b name labels) n with
      | none => rfl
      | some v => exact absurd (ho ▸ (get?_isSome _ n).2 ⟨v, h⟩) hno
    rw [hgx, hgz, h1, h2]
    exact .absent

/-! ## What is in reach of `{"object": obj}` -/

theorem reach_wrap {m : Mem} {obj w : V} (h : Reachable m false (mkDict [("object", obj)]) w) :
    w = mkDict [("object", obj)] ∨ w = .str "object" ∨ Reachable m false obj w := by
  induction h with
  | refl => exact .inl rfl
  | step hw hc ih =>
    rcases ih with rfl | rfl | ih
    · right
      rw [← mem_kidsForeach] at hc
      simp only [mkDict, kidsForeach, List.map_cons, List.map_nil] at hc
      simp at hc
      rcases hc with rfl | rfl
      · exact .inl rfl
      · exact .inr (.refl _)
    · rw [← mem_kidsForeach] at hc
      simp [kidsForeach] at hc
    · exact .inr (.inr (.step ih hc))

theorem reach_wrap_ref {m : Mem} {obj : V} {o : Nat} : Reachable m false (mkDict [("object", obj)]) (.ref o) ↔ Reachable m false obj (.ref o) := by
  constructor
  · intro h
    rcases reach_wrap h with h | h | h
    · simp [mkDict] at h
    · cases h
    · exact h
  · intro h
    exact (Reachable.step (.refl _) (.value (by simp))).trans h

theorem Flattenable.wrap {env : Env} {m : Mem} {obj : V} (h : Flattenable env m obj) : Flattenable env m (mkDict [("object", obj)]) := by
  refine ⟨h.typed, ?_, ?_, ?_⟩
  · intro l hl
    rcases reach_wrap hl with e | e | hl
    · simp [mkDict] at e
    · cases e
    · exact h.flat l hl
  · intro o x hx hr; exact h.plain o x hx (reach_wrap_ref.1 hr)
  · intro o x hx hr; exact h.free o x hx (reach_wrap_ref.1 hr)

/-- links in attributes are in reach -/
theorem reach_asDict_link {env : Env} {m : Mem} (hT : WellTyped env m) {root : V} {o : Nat} {x : EObj} (hx : m[o]? = some x)
    (ho : Reachable m false root (.ref o)) {e : String × V} (he : e ∈ asDict m x) (hv : wf e.2) {s i : String} (hp : V.link s i ∈ e.2.subs) :
    Reachable m false root (.link s i) := by
  obtain ⟨vals, own, hs, hown⟩ := hT o x hx
  have hd := asDict_eq hs m
  rw [hd] at he
  simp only [List.mem_cons, List.mem_append] at he
  rcases he with rfl | rfl | h | h
  · simp [V.subs] at hp
  · simp only [uidsDict, V.subs, List.mem_cons, reduceCtorEq, false_or, List.mem_append, mem_subss] at hp
    rcases hp with ⟨w, hw, hp⟩ | ⟨w, hw, hp⟩ <;> (obtain ⟨u, _, rfl⟩ := List.mem_map.1 hw; simp [V.subs] at hp)
  · have hz : e ∈ (((eargs x.cls).zip vals).map (fun e => (e.1.name, e.2))) := by
      rw [List.zip_map_left] at h
      exact h
    obtain ⟨g, hg, rfl⟩ := List.mem_map.1 hz
    have hm := List.of_mem_zip (a := g.1) (b := g.2) hg
    have hfield : (g.1.attr, g.2) ∈ x.fields := by
      rw [hs.fields, List.zip_map_left]
      exact List.mem_append_left _ (List.mem_map.2 ⟨g, hg, rfl⟩)
    have hc : Child m false (.ref o) g.2 := .field hx hfield (by simp)
    exact (ho.step hc).trans (reach_subs m false g.2 hv _ hp)
  · by_cases hc : x.cls = .ingredientRun
    · obtain ⟨name, labels, e', h1, h2⟩ := ingredientPart_eq hT hs hc (hown hc)
      rw [e'] at h
      simp only [List.mem_cons, List.not_mem_nil, or_false] at h
      have hstr : ∀ v, isStr v = true → V.link s i ∉ v.subs := by
        intro v hv hm
        cases v <;> simp [isStr] at hv
        simp [V.subs] at hm
      rcases h with rfl | rfl
      · rcases h1 with rfl | h1
        · simp [V.subs] at hp
        · exact absurd hp (hstr _ h1)
      · rcases h2 with rfl | ⟨l, rfl, h2⟩
        · simp [V.subs] at hp
        · simp only [V.subs, List.mem_cons, reduceCtorEq, false_or, mem_subss] at hp
          obtain ⟨w, hw, hp⟩ := hp
          exact absurd hp (hstr _ (h2 w hw))
    · unfold ingredientPart at h
      rw [if_neg hc] at h
      simp at h

/-! ## The flat list -/

/-- `obj` can be written, and what is written determines it -/
structure Writable (env : Env) (m : Mem) (obj : V) : Prop where
  graph : Flattenable env m obj
  there : ∀ o, Reachable m false obj (.ref o) → o < m.length
  wf : wf obj
  noTuple : noTuple obj
  ok : okV env m obj
  apart : Unambiguous env.lower m obj
  foreign : Foreign env.lower m obj
  back : BackLinked m obj

theorem carries_append {lower : String → String} {m l : Mem} {o : Nat} (ho : o < m.length) {s i : String} :
    Carries lower (m ++ l) o s i ↔ Carries lower m o s i := by
  unfold Carries
  rw [List.getElem?_append_left ho]

/-- the flat list, the entities that its members were made from, and what is written -/
theorem flat_source {env : Env} {m : Mem} {obj : V} (h : Writable env m obj) (hu : Identified m obj) :
    ∃ (n : Nat) (M : Mem) (ps : List Nat) (ys : List EObj) (L : List Nat), (∀ n' ≥ n, flattenSet env n' m (mkDict [("object", obj)]) = some (.ok (ps.map .ref, M))) ∧ (∃ l, M = m ++ l) ∧
      ps.length = ys.length ∧ ys.length = L.length ∧ Source env M (linkOf env.lower none true m) L ∧
      (∀ o, o ∈ L ↔ o < m.length ∧ Reachable m false obj (.ref o)) ∧
      (∀ k (h1 : k < ps.length) (h2 : k < ys.length), M[ps[k]]? = some ys[k]) ∧
      (∀ k (h1 : k < L.length) (h2 : k < ys.length), ∃ x, M[L[k]]? = some x ∧ Copy env M (linkOf env.lower none true m) x ys[k]) := by
  have hg := h.graph
  obtain ⟨n, order, ys, c1, c2, c3, c4, c5, c6⟩ := flatten_core hg.wrap (fun o x hx hr => hu o x hx (reach_wrap_ref.1 hr))
  simp only [reach_wrap_ref] at c2
  generalize hos : kept m [] order = os at *
  have hosn : os.Nodup := hos ▸ (kept_sublist m [] order).nodup c1
  have hosm : ∀ o, o ∈ os ↔ o < m.length ∧ Reachable m false obj (.ref o) := by
    intro o
    rw [← c2, ← hos]
    refine ⟨fun ho => (kept_sublist m [] order).subset ho, fun ho => ?_⟩
    rcases kept_or (m := m) (known := []) ho with h1 | ⟨u, hu1, h2 | ⟨p, h2, h3⟩⟩
    · exact h1
    · simp at h2
    · exfalso
      have hp : p ∈ order := h2.subset (by simp)
      have hne := h2.nodup c1
      obtain ⟨ho1, ho2⟩ := (c2 o).1 ho
      obtain ⟨hp1, hp2⟩ := (c2 p).1 hp
      have e : p = o := by
        refine h.apart p o (env.lower u.1) u.2 hp2 ho2 ⟨m[p], List.getElem?_eq_getElem hp1, u.1, ?_, rfl⟩ ⟨m[o], List.getElem?_eq_getElem ho1, u.1, ?_, rfl⟩
        · rwa [uidsAt_some (List.getElem?_eq_getElem hp1)] at h3
        · rwa [uidsAt_some (List.getElem?_eq_getElem ho1)] at hu1
      subst e
      simp at hne
  obtain ⟨ps, hps, hpe⟩ := perm_unmap V.ref (sortBy_perm (orderOf (m ++ ys)) ((List.range' m.length ys.length).map .ref)) _ rfl
  have hplen : ps.length = ys.length := by rw [hps.length_eq]; simp
  have hLp : (ps.map (fun p => os.getD (p - m.length) 0)).Perm os := by
    refine (hps.map _).trans ?_
    rw [show (List.range' m.length ys.length).map (fun p => os.getD (p - m.length) 0) = os from ?_]
    apply List.ext_getElem
    · simp [c3]
    · intro i i1 i2
      simp [List.getD_eq_getElem?_getD, i2]
  have hpk : ∀ k (hk : k < ps.length), ∃ i, ∃ h1 : i < ys.length, ∃ h2 : i < os.length, ps[k] = m.length + i ∧ os.getD (ps[k] - m.length) 0 = os[i] := by
    intro k hk
    have := hps.subset (List.getElem_mem hk)
    obtain ⟨i, hi, e⟩ := List.mem_range'.1 this
    have hi2 : i < os.length := by omega
    refine ⟨i, hi, hi2, by omega, ?_⟩
    have : ps[k] - m.length = i := by omega
    rw [this]
    simp [List.getD_eq_getElem?_getD, hi2]
  generalize hL : ps.map (fun p => os.getD (p - m.length) 0) = L at *
  have hLlen : L.length = ps.length := by rw [← hL]; simp
  have hLn : L.Nodup := hLp.nodup_iff.2 hosn
  have hLm : ∀ o, o ∈ L ↔ o < m.length ∧ Reachable m false obj (.ref o) := fun o => by rw [hLp.mem_iff, hosm]
  -- the members
  let d : EObj := ⟨.processRun, [], []⟩
  let Y := ps.map (fun p => ys.getD (p - m.length) d)
  have hYlen : Y.length = ps.length := by simp [Y]
  have hmem : ∀ k (h1 : k < ps.length) (h2 : k < Y.length) (h3 : k < L.length), (m ++ ys)[ps[k]]? = some Y[k] ∧
      ∃ x, m[L[k]]? = some x ∧ Copy env (m ++ ys) (linkOf env.lower none true m) x Y[k] := by
    intro k h1 h2 h3
    obtain ⟨i, i1, i2, e1, e2⟩ := hpk k h1
    have eY : Y[k] = ys[i] := by
      simp only [Y, List.getElem_map]
      rw [show ps[k] - m.length = i by omega]
      simp [List.getD_eq_getElem?_getD, i1]
    have eL : L[k] = os[i] := by
      simp only [← hL, List.getElem_map]
      exact e2
    rw [eY, eL]
    refine ⟨?_, c6 i i2 i1⟩
    rw [e1, List.getElem?_append_right (by omega)]
    simp [i1]
  have hget : ∀ o x, o ∈ L → (m ++ ys)[o]? = some x → m[o]? = some x := by
    intro o x ho hx
    rwa [List.getElem?_append_left ((hLm o).1 ho).1] at hx
  have hdict : ∀ (o : Nat) (x : EObj), m[o]? = some x → asDict (m ++ ys) x = asDict m x := by
    intro o x hx
    obtain ⟨vals, own, hs, _⟩ := hg.typed o x hx
    exact asDict_append hs ys
  refine ⟨n, m ++ ys, ps, Y, L, ?_, ⟨ys, rfl⟩, hYlen.symm, hYlen.trans hLlen.symm, ⟨c5, hLn, ?_, ?_, ?_, ?_, ?_⟩, hLm, ?_, ?_⟩
  · intro n' hn'
    rw [c4 n' hn', hpe]
  · intro o ho x hx e he
    have hx := hget o x ho hx
    rw [hdict o x hx] at he
    exact hg.plain o x hx ((hLm o).1 ho).2 e he
  · intro k hk x hx e he p hp
    have hx := hget _ x (List.getElem_mem hk) hx
    rw [hdict _ x hx] at he
    have hr := ((hLm _).1 (List.getElem_mem hk)).2
    obtain ⟨f1, f2⟩ := hg.free _ x hx hr
    obtain ⟨y, hy, hlt⟩ := forward_refs hg.typed hx f1 f2 he hp
    have hrp := reach_asDict hg.typed hx hr he (hg.plain _ x hx hr e he).1 hp
    obtain ⟨b, hb, eb⟩ := List.getElem_of_mem ((hLm p).2 ⟨(List.getElem?_eq_some_iff.1 hy).1, hrp⟩)
    refine ⟨b, hb, ?_, eb⟩
    apply Nat.lt_of_not_le
    intro hle
    have hord : ∀ k (h1 : k < ps.length) (h2 : k < L.length) z, m[L[k]]? = some z → orderOf (m ++ ys) (.ref ps[k]) = sortOrder z.cls := by
      intro k h1 h2 z hz
      obtain ⟨g1, z', g2, g3⟩ := hmem k h1 (by omega) h2
      rw [hz] at g2; cases g2
      simp only [orderOf, g1]
      obtain ⟨_, _, _, _, _, _, e, _⟩ := g3
      rw [e]; rfl
    have o1 := hord k (by omega) hk x hx
    have o2 := hord b (by omega) hb y (by rw [eb]; exact hy)
    have hsorted := sortBy_sorted (orderOf (m ++ ys)) ((List.range' m.length ys.length).map .ref)
    rw [hpe, List.pairwise_map] at hsorted
    rcases Nat.lt_or_eq_of_le hle with hl | hl
    · have := List.pairwise_iff_getElem.1 hsorted k b (by omega) (by omega) hl
      omega
    · subst hl
      rw [o1] at o2
      omega
  · intro o ho
    obtain ⟨hlt, hr⟩ := (hLm o).1 ho
    have hx := List.getElem?_eq_getElem hlt
    obtain ⟨s, i, _, e2, e3⟩ := linkOf_ok (lower := env.lower) (scope := none) (fallback := true) hx ⟨hu o _ hx hr, .inl rfl⟩
    exact ⟨s, i, e2, (carries_append hlt).2 e3⟩
  · intro o ho x hx e he s i hl p hp hc
    have hx := hget o x ho hx
    rw [hdict o x hx] at he
    obtain ⟨hlt, hr⟩ := (hLm o).1 ho
    obtain ⟨hltp, hrp⟩ := (hLm p).1 hp
    exact h.foreign s i p (reach_asDict_link hg.typed hx hr he (hg.plain o x hx hr e he).1 hl) hrp ((carries_append hltp).1 hc)
  · intro p hp q hq s i h1 h2
    obtain ⟨hltp, hrp⟩ := (hLm p).1 hp
    obtain ⟨hltq, hrq⟩ := (hLm q).1 hq
    exact h.apart p q s i hrp hrq ((carries_append hltp).1 h1) ((carries_append hltq).1 h2)
  · intro k h1 h2
    exact (hmem k h1 h2 (by omega)).1
  · intro k h1 h2
    obtain ⟨_, x, hx, hc⟩ := hmem k (by omega) h2 h1
    exact ⟨x, get_append hx ys, hc⟩

/-! ## Entities in what comes back -/

theorem strings_noRef {ks : List V} {names : List String} (h : strings ks = some names) (q : Nat) : V.ref q ∉ subss ks := by
  rw [strings_eq h, mem_subss]
  rintro ⟨u, hu, hm⟩
  obtain ⟨t, _, rfl⟩ := List.mem_map.1 hu
  simp [V.subs] at hm

mutual
theorem alike_ref {L : Nat → V → Prop} (v w : V) (hv : wf v) (h : alike L SameLink v w) (q : Nat) (hm : V.ref q ∈ w.subs)
    (hL : ∀ o w, L o w → ∃ q, w = .ref q) : ∃ o, V.ref o ∈ v.subs ∧ L o (.ref q) := by
  cases v with
  | list l =>
    obtain ⟨l', rfl, h⟩ := h
    simp only [V.subs, List.mem_cons, reduceCtorEq, false_or, wf] at hm hv ⊢
    exact alikes_ref l l' hv h q hm hL
  | tuple l =>
    obtain ⟨l', rfl, h⟩ := h
    simp only [V.subs, List.mem_cons, reduceCtorEq, false_or, wf] at hm hv ⊢
    exact alikes_ref l l' hv h q hm hL
  | dict ks vs =>
    obtain ⟨ks', vs', ps, rfl, hl, hp, h1, h⟩ := h
    simp only [wf] at hv
    obtain ⟨⟨_, names, hs, _⟩, hv⟩ := hv
    simp only [V.subs, List.mem_cons, reduceCtorEq, false_or, List.mem_append] at hm ⊢
    have hk : ks.Perm ks' := by
      rw [← h1]
      have := hp.map Prod.fst
      rwa [List.map_fst_zip (by omega)] at this
    have hv' : (ps.map Prod.snd).Perm vs' := by
      have := hp.map Prod.snd
      rwa [List.map_snd_zip (by omega)] at this
    rcases hm with hm | hm
    · exfalso
      apply strings_noRef hs q
      rw [mem_subss] at hm ⊢
      obtain ⟨u, hu, hm⟩ := hm
      exact ⟨u, hk.mem_iff.2 hu, hm⟩
    · have hm' : V.ref q ∈ subss (ps.map Prod.snd) := by
        rw [mem_subss] at hm ⊢
        obtain ⟨u, hu, hm⟩ := hm
        exact ⟨u, hv'.mem_iff.2 hu, hm⟩
      obtain ⟨o, ho, h⟩ := alikes_ref vs _ hv h q hm' hL
      exact ⟨o, .inr ho, h⟩
  | obj t ns vs =>
    obtain ⟨l', rfl, h⟩ := h
    simp only [V.subs, List.mem_cons, reduceCtorEq, false_or, wf] at hm hv ⊢
    exact alikes_ref vs l' hv.2 h q hm hL
  | link a b =>
    simp only [alike, SameLink] at h
    subst h
    simp [V.subs] at hm
  | ref o =>
    simp only [alike] at h
    obtain ⟨a, rfl⟩ := hL o w h
    simp only [V.subs, List.mem_cons, List.not_mem_nil, or_false, V.ref.injEq] at hm
    subst hm
    exact ⟨o, self_mem_subs _, h⟩
  | none => simp only [alike] at h; subst h; simp [V.subs] at hm
  | str t => simp only [alike] at h; subst h; simp [V.subs] at hm
  | bool b => simp only [alike] at h; cases w <;> simp [num] at h <;> simp [V.subs] at hm
  | int b => simp only [alike] at h; cases w <;> simp [num] at h <;> simp [V.subs] at hm
  | float b => simp only [alike] at h; cases w <;> simp [num] at h <;> simp [V.subs] at hm
termination_by structural v
theorem alikes_ref {L : Nat → V → Prop} (l l' : List V) (hv : wfs l) (h : alikes L SameLink l l') (q : Nat) (hm : V.ref q ∈ subss l')
    (hL : ∀ o w, L o w → ∃ q, w = .ref q) : ∃ o, V.ref o ∈ subss l ∧ L o (.ref q) := by
  cases l with
  | nil => simp only [alikes] at h; subst h; simp [subss] at hm
  | cons v vs =>
    obtain ⟨w, ws, rfl, h1, h2⟩ := h
    simp only [subss, List.mem_append, wfs] at hm hv ⊢
    rcases hm with hm | hm
    · obtain ⟨o, ho, h⟩ := alike_ref v w hv.1 h1 q hm hL
      exact ⟨o, .inl ho, h⟩
    · obtain ⟨o, ho, h⟩ := alikes_ref vs ws hv.2 h2 q hm hL
      exact ⟨o, .inr ho, h⟩
termination_by structural l
end

theorem child_subs {m : Mem} {u w : V} (h : Child m false u w) (hu : ∀ o, u ≠ .ref o) (q : Nat) (hq : V.ref q ∈ w.subs) : V.ref q ∈ u.subs := by
  cases h with
  | list h => simp only [V.subs, List.mem_cons, mem_subss]; exact .inr ⟨_, h, hq⟩
  | tuple h => simp only [V.subs, List.mem_cons, mem_subss]; exact .inr ⟨_, h, hq⟩
  | key h => simp only [V.subs, List.mem_cons, List.mem_append, mem_subss]; exact .inr (.inl ⟨_, h, hq⟩)
  | value h => simp only [V.subs, List.mem_cons, List.mem_append, mem_subss]; exact .inr (.inr ⟨_, h, hq⟩)
  | attr h => simp only [V.subs, List.mem_cons, mem_subss]; exact .inr ⟨_, (List.of_mem_zip h).2, hq⟩
  | scope => simp [V.subs] at hq
  | id => simp [V.subs] at hq
  | field _ _ _ => exact absurd rfl (hu _)

section
variable {env : Env} {M : Mem} {f : Nat → V} {L : List Nat} {base : Nat}

/-- the entities in an image are images -/
theorem image_refs (hS : Source env M f L) {st : Loading} (hI : Loaded env M L base L.length st) {k : Nat} (hk : k < L.length) {x z : EObj}
    (hx : M[L[k]]? = some x) (hi : Image env M (imageOf base L) L st.mem L[k] x z) {n : String} {w : V} (hw : (n, w) ∈ z.fields) {q : Nat}
    (hq : V.ref q ∈ w.subs) : ∃ o ∈ L, V.ref q = imageOf base L o := by
  obtain ⟨_, _, _, hal, _⟩ := image_asDict hS hI hk hx hi
  have hpl := hS.plain _ (List.getElem_mem hk) x hx
  obtain ⟨vals, own, us, name, labels, hs, hname, hlabels, hpart, hc, hu, hz, hnf, hus⟩ := hi
  rw [hz.fields] at hw
  rcases List.mem_append.1 hw with hw | hw
  · have hwu := (List.of_mem_zip hw).2
    have hmem : V.ref q ∈ subss ((asDict st.mem z).map Prod.snd) := by
      rw [mem_subss]
      refine ⟨w, ?_, hq⟩
      rw [asDict_eq hz st.mem]
      simp only [List.map_cons, List.map_append, List.mem_cons, List.mem_append]
      rw [List.map_snd_zip (by rw [List.length_map, hz.len]; exact Nat.le_refl _)]
      exact .inr (.inr (.inl hwu))
    obtain ⟨o, ho, h⟩ := alikes_ref _ _ (by rw [wfs_iff]; intro v hv; obtain ⟨e, he, rfl⟩ := List.mem_map.1 hv; exact (hpl e he).1) hal q hmem
      (fun o w h => ⟨_, h⟩)
    rw [mem_subss] at ho
    obtain ⟨v, hv, ho⟩ := ho
    obtain ⟨e, he, rfl⟩ := List.mem_map.1 hv
    obtain ⟨b, hb, _, rfl⟩ := hS.refs k hk x hx e he o ho
    exact ⟨_, List.getElem_mem hb, h⟩
  · unfold ownAt at hw
    split at hw
    · simp only [List.mem_cons, List.not_mem_nil, or_false, Prod.mk.injEq] at hw
      rcases hw with ⟨_, rfl⟩ | ⟨_, rfl⟩
      · exact absurd hq (noRef_subs _ (nameLike_clean (env := env) (m := M) hname).1.wf (nameLike_clean (env := env) (m := M) hname).1.noRef q)
      · exact absurd hq (noRef_subs _ (labelsLike_clean (env := env) (m := M) hlabels).1.wf (labelsLike_clean (env := env) (m := M) hlabels).1.noRef q)
    · obtain ⟨e, _, he⟩ := List.mem_map.1 hw
      cases he
      have hb : ∀ w ∈ backers M (imageOf base L) L e.1 L[k], ∃ o ∈ L, w = imageOf base L o := by
        intro w hw
        obtain ⟨o, ho, rfl⟩ := List.mem_map.1 hw
        exact ⟨o, (List.mem_filter.1 ho).1, rfl⟩
      unfold backVal at hq
      generalize backers M (imageOf base L) L e.1 L[k] = bs at *
      have hsub : ∀ w ∈ bs, V.ref q ∈ w.subs → ∃ o ∈ L, V.ref q = imageOf base L o := by
        intro w hw hm
        obtain ⟨o, ho, rfl⟩ := hb w hw
        simp only [imageOf, V.subs, List.mem_cons, List.not_mem_nil, or_false] at hm
        exact ⟨o, ho, hm⟩
      split at hq
      · cases hl : bs.getLast? with
        | none => rw [hl] at hq; simp [V.subs] at hq
        | some w => rw [hl] at hq; exact hsub w (List.mem_of_getLast? hl) hq
      · simp only [V.subs, List.mem_cons, reduceCtorEq, false_or, mem_subss] at hq
        obtain ⟨w, hw, hq⟩ := hq
        exact hsub w hw hq

/-- nothing but images is in reach of what comes back -/
theorem reach_images (hS : Source env M f L) {st : Loading} (hI : Loaded env M L base L.length st) {r : V}
    (hr : ∀ q, V.ref q ∈ r.subs → ∃ o ∈ L, V.ref q = imageOf base L o) {u : V} (h : Reachable st.mem false r u) :
    ∀ q, V.ref q ∈ u.subs → ∃ o ∈ L, V.ref q = imageOf base L o := by
  induction h with
  | refl => exact hr
  | step h hc ih =>
    rename_i u w
    by_cases hu : ∃ o, u = .ref o
    · obtain ⟨p, rfl⟩ := hu
      obtain ⟨o, ho, e⟩ := ih p (self_mem_subs _)
      obtain ⟨k, hk, rfl⟩ := List.getElem_of_mem ho
      rw [imageOf_get hS.nodup hk] at e
      cases e
      intro q hq
      cases hc with
      | field h1 h2 h3 =>
        obtain ⟨x, z, hx, hz, hi⟩ := hI.image k hk hk
        rw [hz] at h1
        cases h1
        rw [List.take_length] at hi
        exact image_refs hS hI hk hx hi h2 hq
    · intro q hq
      exact ih q (child_subs hc (fun o e => hu ⟨o, e⟩) q hq)

end

/-! ## C43 -/

/-- what is written contains no entities -/
theorem written_noRef {env : Env} {m : Mem} {res : V} {l : List V} {t : V} {m' : Mem} (h : writeContext env m res l = .ok (t, m')) : noRef t := by
  unfold writeContext at h
  split at h
  · cases h
  · split at h
    · cases h
    · rename_i ht
      cases h
      exact rawDumps_noRef ht
  · cases h

/-- what is read is type-correct -/
theorem loaded_typed {env : Env} {M M0 : Mem} {L : List Nat} {st : Loading} (h : Loaded env M L M0.length L.length st) (he : Extends M0 st.mem) (hT : WellTyped env M0) :
    WellTyped env st.mem := by
  intro o x hx
  have hlt := (List.getElem?_eq_some_iff.1 hx).1
  obtain ⟨extra, e⟩ := he
  by_cases ho : o < M0.length
  · rw [e, List.getElem?_append_left ho] at hx
    obtain ⟨vals, own, hs, hown⟩ := hT o x hx
    exact ⟨vals, own, hs.grows (e ▸ Grows.append M0 extra), hown⟩
  · have hl := h.len
    obtain ⟨x0, z, _, hz, vals, own, us, name, labels, _, h1, h2, _, hc, _, hs, _⟩ := h.image (o - M0.length) (by omega) (by omega)
    rw [show M0.length + (o - M0.length) = o by omega, hx] at hz
    cases hz
    refine ⟨us, _, hs, ?_⟩
    intro hi
    refine ⟨name, labels, ?_, h1, h2⟩
    unfold ownAt
    rw [if_pos (hc.symm.trans hi)]

/-- reading what has been written -/
theorem round_trip {env : Env} {m : Mem} {obj : V} (h : Writable env m obj) (hu : Identified m obj) :
    ∃ (n : Nat) (l : List V) (M : Mem) (t : V), (∀ n' ≥ n, flattenSet env n' m (mkDict [("object", obj)]) = some (.ok (l, M))) ∧ (∃ ys, M = m ++ ys) ∧ WellTyped env M ∧
      writeContext env M (mkDict [("object", obj)]) l = .ok (t, M) ∧
      ∀ M0 : Mem, ∃ w m' φ, loads env M0 t = .ok (w, m') ∧ Iso m obj m' w φ ∧ (∀ o, Reachable m false obj (.ref o) → M0.length ≤ φ o) ∧
        (WellTyped env M0 → WellTyped env m') ∧ ∀ o z, Reachable m false obj (.ref o) → m'[φ o]? = some z → ∀ e ∈ asDict m' z, wf e.2 ∧ noTuple e.2 := by
  obtain ⟨n, M, ps, ys, L, h1, ⟨l, rfl⟩, h3, h4, hS, hL, h5, h6⟩ := flat_source h hu
  have hrL : ∀ p, V.ref p ∈ obj.subs → p ∈ L := by
    intro p hp
    have hr := reach_subs m false obj h.wf _ hp
    exact (hL p).2 ⟨h.there p hr, hr⟩
  have hget : ∀ a, a < m.length → (m ++ l)[a]? = m[a]? := fun a ha => List.getElem?_append_left ha
  have hok : okV env (m ++ l) obj := okV_grows (Grows.append m l) obj h.ok
  have hIn : Input env (m ++ l) none true (mkDict [("object", obj)]) (linkOf env.lower none true m) obj := by
    refine ⟨h.wf, hok, h.noTuple, ?_⟩
    intro o ho
    obtain ⟨hlt, hr⟩ := (hL o).1 (hrL o ho)
    have hx := List.getElem?_eq_getElem hlt
    obtain ⟨s, i, e1, e2, _⟩ := linkOf_ok (lower := env.lower) (scope := none) (fallback := true) hx ⟨hu o _ hx hr, .inl rfl⟩
    refine ⟨by simp [mkDict], _, s, i, (hget o hlt).trans hx, e1, e2⟩
  obtain ⟨w, hw1, hw2⟩ := write_context h3 hIn (fun i i1 i2 => by
    refine ⟨h5 i i1 i2, ?_⟩
    obtain ⟨x, hx, hc⟩ := h6 i (by omega) i2
    exact ⟨x, hS.plain _ (List.getElem_mem _) x hx, hc⟩)
  refine ⟨n, _, m ++ l, _, h1, ⟨l, rfl⟩, hS.typed, hw1, ?_⟩
  intro M0
  have hfor : ∀ s i, V.link s i ∈ obj.subs → ∀ p ∈ L, ¬ Carries env.lower (m ++ l) p (env.lower s) i := by
    intro s i hl p hp hc
    obtain ⟨hlt, hr⟩ := (hL p).1 hp
    exact h.foreign s i p (reach_subs m false obj h.wf _ hl) hr ((carries_append hlt).1 hc)
  obtain ⟨r, st, hr1, hr2, hr3, hr4, hr5⟩ := read_context hS h4 h6 h.wf h.noTuple hok hrL hfor hw2 M0
  have hroot : alike (fun o u => u = .ref (M0.length + L.idxOf o)) SameLink obj r :=
    alike_nf (f := imageOf M0.length L) (g := .link) obj r h.wf h.noTuple hr3 hr4 (fun _ _ => by unfold imageOf; trivial) (fun _ _ _ => trivial) hr5
  refine ⟨r, st.mem, fun o => M0.length + L.idxOf o, hr1, ⟨hroot, ?_, ?_, ?_⟩, fun o _ => Nat.le_add_right _ _, ?_, ?_⟩
  · intro o p ho hp e
    have ho := (hL o).2 ⟨h.there o ho, ho⟩
    have hp := (hL p).2 ⟨h.there p hp, hp⟩
    obtain ⟨a, ha, rfl⟩ := List.getElem_of_mem ho
    obtain ⟨b, hb, rfl⟩ := List.getElem_of_mem hp
    rw [idx_get hS.nodup ha, idx_get hS.nodup hb] at e
    have : a = b := by omega
    subst this
    rfl
  · intro o x hx ho
    have hoL := (hL o).2 ⟨h.there o ho, ho⟩
    obtain ⟨k, hk, rfl⟩ := List.getElem_of_mem hoL
    obtain ⟨x', z, hx', hz, hi⟩ := hr2.image k hk hk
    have hx2 := (hget _ (h.there _ ho)).trans hx
    rw [hx2] at hx'
    cases hx'
    rw [List.take_length] at hi
    obtain ⟨i1, i2, i3, i4, _⟩ := image_asDict hS hr2 hk hx2 hi
    obtain ⟨vals, own, hs, _⟩ := h.graph.typed _ x hx
    rw [asDict_append hs l] at i3 i4
    refine ⟨z, ?_, i1, i2, i3, i4, ?_⟩
    · simp only [idx_get hS.nodup hk]; exact hz
    · intro n hn
      exact image_back hget hS.nodup hi hn obj hL hx ho (fun v hv => h.back _ x hx ho n hn v hv)
  · intro q hq
    obtain ⟨o, ho, e⟩ := reach_images hS hr2 (r := r) (fun q hq => by
      obtain ⟨o, ho, e⟩ := alike_ref obj r h.wf hroot q hq (fun o w h => ⟨_, h⟩)
      exact ⟨o, hrL o ho, e⟩) hq q (self_mem_subs _)
    unfold imageOf at e
    cases e
    exact ⟨o, ((hL o).1 ho).2, rfl⟩
  · exact loaded_typed hr2 (C44_loads_keeps env M0 _ _ _ (written_noRef hw1) hr1)
  · intro o z ho hz
    obtain ⟨k, hk, rfl⟩ := List.getElem_of_mem ((hL o).2 ⟨h.there o ho, ho⟩)
    obtain ⟨x, z', hx, hz', hi⟩ := hr2.image k hk hk
    simp only [idx_get hS.nodup hk] at hz
    rw [hz'] at hz
    cases hz
    have := (image_asDict hS hr2 hk hx hi).2.2.2.2
    exact fun e he => this _ (List.mem_map_of_mem he)

/-- the ids that will be drawn differ from each other, from those in reach, and from those that links in reach mean -/
structure Fresh (lower : String → String) (m : Mem) (obj : V) (scope : String) (gen : Nat → String) (drawn : Nat) : Prop where
  inj : ∀ j k, gen j = gen k → j = k
  ids : ∀ k, drawn ≤ k → ∀ p, Reachable m false obj (.ref p) → ¬ Carries lower m p (lower scope) (gen k)
  links : ∀ k, drawn ≤ k → ∀ s, Reachable m false obj (.link s (gen k)) → lower s ≠ lower scope

theorem points_same {m m1 : Mem} (h : SameGraph m m1) {n : String} {a b : Nat} : Points m1 n a b ↔ Points m n a b := by
  rw [← points_iff, ← points_iff]
  have := sameGraph_get h a
  unfold pointsBack
  cases h1 : m1[a]? with
  | none =>
    rw [h1] at this
    cases h2 : m[a]? with
    | none => rfl
    | some x => rw [h2] at this; simp at this
  | some y =>
    rw [h1] at this
    cases h2 : m[a]? with
    | none => rw [h2] at this; simp at this
    | some x => rw [h2] at this; simp at this; simp only [this.1, this.2]

theorem Names.same {m m1 : Mem} (h : SameGraph m m1) {root : V} {n : String} {b : Nat} {v : V} (hn : Names m root n b v) : Names m1 root n b v := by
  cases hn with
  | none h1 h2 => exact .none h1 (fun a ha hp => h2 a ((reachable_congr h).1 ha) ((points_same h).1 hp))
  | one a h1 h2 h3 => exact .one a h1 ((points_same h).2 h2) (fun c hc hp => h3 c ((reachable_congr h).1 hc) ((points_same h).1 hp))
  | many as h1 h2 h3 h4 =>
    exact .many as h1 h2 (fun a ha => (points_same h).2 (h3 a ha)) (fun a ha hp => h4 a ((reachable_congr h).1 ha) ((points_same h).1 hp))

/-- after `set_uuids` of a part, everything in its reach has an id, and the ids still determine the entity -/
theorem writable_part {env : Env} {m : Mem} {obj part : V} (scope : String) (gen : Nat → String) (drawn : Nat) (h : Writable env m obj) (hsc : scope ≠ "type")
    (hp : ∀ w, Reachable m false part w → Reachable m false obj w) (hf : Fresh env.lower m obj scope gen drawn) :
    ∃ n m1 c1, (∀ n' ≥ n, setUuids scope gen n' m drawn (mkDict [("object", part)]) = some (.ok (m1, c1))) ∧ Numbered scope m m1 part ∧ Writable env m1 obj ∧
      ∀ (o : Nat) (y : EObj), m1[o]? = some y → ∃ x : EObj, m[o]? = some x ∧ (y = x ∨ x.uids = [] ∧ ∃ k, drawn ≤ k ∧ y.uids = [(scope, gen k)]) := by
  have hflat : NoListInTuple m false (mkDict [("object", part)]) := by
    intro l hl
    rcases reach_wrap hl with e | e | hl
    · simp [mkDict] at e
    · cases e
    · exact h.graph.flat l (hp _ hl)
  obtain ⟨n, m1, c1, draw, h1, h2, h3, h4, h5, _⟩ := C38_set_uuids_partial scope gen m drawn (mkDict [("object", part)]) hflat
  simp only [reach_wrap_ref] at h3 h4 h5
  obtain ⟨n2, m1', c1', k1, k2⟩ := numbered scope gen drawn hflat
  have e := (h1 (max n n2) (by omega)).symm.trans (k1 (max n n2) (by omega))
  cases e
  have hnum : Numbered scope m m1 part := by
    refine ⟨k2.same, ?_, fun o x hx hr => k2.all o x hx (reach_wrap_ref.2 hr)⟩
    intro o x hx
    obtain ⟨y, hy, hh⟩ := k2.uids o x hx
    simp only [reach_wrap_ref] at hh
    exact ⟨y, hy, hh⟩
  have hreach : ∀ {w}, Reachable m1 false obj w ↔ Reachable m false obj w := reachable_congr hnum.same
  have hcar : ∀ o s i, Reachable m false obj (.ref o) → Carries env.lower m1 o s i → Carries env.lower m o s i ∨
      ∃ x, m[o]? = some x ∧ x.uids = [] ∧ s = env.lower scope ∧ i = gen (draw o) ∧ drawn ≤ draw o ∧ Reachable m false part (.ref o) := by
    rintro o s i _ ⟨y, hy, sc, hmem, hl⟩
    obtain ⟨x, hx, _, _⟩ := same_back hnum.same hy
    by_cases hu : x.uids = [] ∧ Reachable m false part (.ref o)
    · obtain ⟨hu, hr⟩ := hu
      obtain ⟨d1, _, d2⟩ := h3 o x hx hr hu
      rw [hy] at d2
      cases d2
      simp only [List.mem_cons, List.not_mem_nil, or_false, Prod.mk.injEq] at hmem
      exact .inr ⟨x, hx, hu, by rw [← hl, hmem.1], hmem.2, d1, hr⟩
    · have := h4 o x hx (by
        by_cases hr : Reachable m false part (.ref o)
        · exact .inr (fun e => hu ⟨e, hr⟩)
        · exact .inl hr)
      rw [hy] at this
      cases this
      exact .inl ⟨_, hx, sc, hmem, hl⟩
  refine ⟨n, m1, c1, h1, hnum, ⟨hnum.flattenable hsc h.graph, ?_, h.wf, h.noTuple, okV_grows (same_grows hnum.same) obj h.ok, ?_, ?_, ?_⟩, ?_⟩
  · intro o ho
    rw [h2]
    exact h.there o (hreach.1 ho)
  · intro o p s i ho hp c1 c2
    have ho := hreach.1 ho
    have hp := hreach.1 hp
    rcases hcar o s i ho c1 with c1 | ⟨x, hx, hxu, rfl, rfl, d1, r1⟩ <;> rcases hcar p _ _ hp c2 with c2 | ⟨y, hy, hyu, e1, e2, d2, r2⟩
    · exact h.apart o p s i ho hp c1 c2
    · subst e1 e2
      exact absurd c1 (hf.ids _ d2 o ho)
    · exact absurd c2 (hf.ids _ d1 p hp)
    · exact h5 o x p y hx r1 hxu hy r2 hyu (hf.inj _ _ e2)
  · intro s i p hl hp c
    have hl := hreach.1 hl
    have hp := hreach.1 hp
    rcases hcar p _ _ hp c with c | ⟨x, _, _, e1, rfl, d, _⟩
    · exact h.foreign s i p hl hp c
    · exact hf.links _ d s hl e1
  · intro b y hy hr n hn v hv
    obtain ⟨x, hx, _, e⟩ := same_back hnum.same hy
    rw [e] at hv
    exact (h.back b x hx (hreach.1 hr) n hn v hv).same hnum.same
  · intro o y hy
    obtain ⟨x, hx, _, _⟩ := same_back hnum.same hy
    refine ⟨x, hx, ?_⟩
    by_cases hu : x.uids = [] ∧ Reachable m false part (.ref o)
    · obtain ⟨d1, _, d2⟩ := h3 o x hx hu.2 hu.1
      rw [hy] at d2
      cases d2
      exact .inr ⟨hu.1, _, d1, rfl⟩
    · have := h4 o x hx (by
        by_cases hr : Reachable m false part (.ref o)
        · exact .inr (fun e => hu ⟨e, hr⟩)
        · exact .inl hr)
      rw [hy] at this
      cases this
      exact .inl rfl

/-- after `set_uuids`, everything in reach has an id, and the ids still determine the entity -/
theorem writable_numbered {env : Env} {m : Mem} {obj : V} (scope : String) (gen : Nat → String) (drawn : Nat) (h : Writable env m obj) (hsc : scope ≠ "type")
    (hf : Fresh env.lower m obj scope gen drawn) :
    ∃ n m1 c1, (∀ n' ≥ n, setUuids scope gen n' m drawn (mkDict [("object", obj)]) = some (.ok (m1, c1))) ∧ Numbered scope m m1 obj ∧ Writable env m1 obj := by
  obtain ⟨n, m1, c1, h1, h2, h3, _⟩ := writable_part scope gen drawn h hsc (fun _ hw => hw) hf
  exact ⟨n, m1, c1, h1, h2, h3⟩

/-- C43: `loads(dumps(obj))` is a copy of `obj`: `dumps` succeeds; it first gives an id to each entity in reach that has none (`Numbered`), and changes nothing
else about what exists; reading what it wrote, into any memory, gives a graph isomorphic to the one in reach of `obj`, made of new entities. Entities, ids, links,
attributes and back-links are all the same, up to the order in which back-links list them.

What is asked of `obj`: it is type-correct (`Flattenable`, `okV`), without tuples (they come back as lists) and without dictionaries having a key `type`;
entities in reach have unambiguous ids; no link in reach means an entity in reach (it would come back as that entity); and back-links are up to date. -/
theorem C43_round_trip_partial (env : Env) (m : Mem) (obj : V) (scope : String) (gen : Nat → String) (drawn : Nat) (h : Writable env m obj) (hsc : scope ≠ "type")
    (hf : Fresh env.lower m obj scope gen drawn) :
    ∃ n m1 t M, (∀ n' ≥ n, dumps env scope gen n' m drawn obj = some (.ok (t, M))) ∧ Numbered scope m m1 obj ∧ Extends m1 M ∧
      ∀ M0 : Mem, ∃ w m' φ, loads env M0 t = .ok (w, m') ∧ Iso m1 obj m' w φ ∧ ∀ o, Reachable m1 false obj (.ref o) → M0.length ≤ φ o := by
  obtain ⟨n, m1, c1, h1, h2, h3⟩ := writable_numbered scope gen drawn h hsc hf
  obtain ⟨n2, l, M, t, k1, ⟨ys, rfl⟩, _, k3, k4⟩ := round_trip h3 h2.all
  refine ⟨max n n2, m1, t, m1 ++ ys, ?_, h2, ⟨ys, rfl⟩, fun M0 => ?_⟩
  · intro n' hn'
    unfold dumps
    simp only [flatten, h1 n' (by omega), k1 n' (by omega), k3]
  · obtain ⟨w, m', φ, j1, j2, j3, _⟩ := k4 M0
    exact ⟨w, m', φ, j1, j2, j3⟩

end Verif.Substitute
