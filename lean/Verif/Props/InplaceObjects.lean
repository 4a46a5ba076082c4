import Verif.Props.Inplace
/-!
# C60: `substitute_objects(..., inplace=True)`
-/

set_option linter.unusedSimpArgs false
set_option linter.unusedVariables false
set_option linter.unusedSectionVars false

namespace Verif.Inplace
open Verif.Py Verif.Value Verif.Schema Verif.Json Verif.Substitute

/-! ## The specification -/

/-- the entity `o` has, in an attribute that is not a back-link, the entity `p` or a link that means `p` -/
def Leads (index : Dict (String × String) Nat) (m : Mem) (o p : Nat) : Prop :=
  ∃ a u, a ∉ backNames ∧ attrAt m o a = some u ∧ V.ref p ∈ (resolve index u).subs

/-- the entities one gets to from `v`, following links to what they mean -/
inductive Reached (index : Dict (String × String) Nat) (m : Mem) (v : V) : Nat → Prop where
  | here {o : Nat} : V.ref o ∈ (resolve index v).subs → Reached index m v o
  | next {o p : Nat} : Reached index m v o → Leads index m o p → Reached index m v p

/-- `m` with all links resolved -/
def resolveMem (index : Dict (String × String) Nat) (m : Mem) : Mem :=
  m.map (fun x => { x with fields := x.fields.map (fun f => if f.1 ∈ backNames then f else (f.1, resolve index f.2)) })

theorem resolveMem_attr (index : Dict (String × String) Nat) (m : Mem) (o : Nat) {a : String} (ha : a ∉ backNames) :
    attrAt (resolveMem index m) o a = (attrAt m o a).map (resolve index) := by
  unfold attrAt resolveMem
  rw [List.getElem?_map]
  cases hx : m[o]? with
  | none => rfl
  | some x =>
    simp only [Option.map_some]
    induction x.fields with
    | nil => rfl
    | cons f fs ih =>
      obtain ⟨n, v⟩ := f
      simp only [List.map_cons]
      by_cases e : n = a
      · subst e
        simp [ha, Dict.get?]
      · split <;> simp only [Dict.get?, e, if_false] <;> exact ih

theorem resolveMem_cls (index : Dict (String × String) Nat) (m : Mem) (o : Nat) : clsAt (resolveMem index m) o = clsAt m o := by
  simp [clsAt, resolveMem, List.getElem?_map, Option.map_map, Function.comp_def]

/-- What is asked for substituting in place: attributes hold what their setters take, as they are and with the links in them resolved; there are no tuples,
and dictionaries have strings as keys. Everything led to exists, and what an entity leads to is of smaller rank: no entity leads to itself. -/
structure Ready (env : Env) (index : Dict (String × String) Nat) (m : Mem) (v : V) (rank : Nat → Nat) : Prop where
  typed : WellTyped env m
  typed' : WellTyped env (resolveMem index m)
  plain : Plain v
  ok : okV env (resolveMem index m) (resolve index v)
  there : ∀ o, Reached index m v o → o < m.length
  plains : ∀ o a u, Reached index m v o → a ∉ backNames → attrAt m o a = some u → Plain u
  order : ∀ o p, Reached index m v o → Leads index m o p → rank p < rank o

/-! ## The invariant -/

section
variable (env : Env) (index : Dict (String × String) Nat) (m : Mem) (S : Nat → Prop) (rank : Nat → Nat)

/-- The state while entities of rank `r` or more are being changed. `D` are those that are finished. -/
structure Inv (r : Nat) (D : Nat → Prop) (st : SubSt) : Prop where
  sk : st.mem.map skel = m.map skel
  btw : ∀ o a, a ∉ backNames → attrAt st.mem o a = attrAt m o a ∨ attrAt st.mem o a = (attrAt m o a).map (resolve index)
  done : ∀ o, D o → ∀ a, a ∉ backNames → attrAt st.mem o a = (attrAt m o a).map (resolve index)
  orig : ∀ o, ¬ D o → rank o < r → ∀ a, a ∉ backNames → attrAt st.mem o a = attrAt m o a
  vis : ∀ k w, Dict.get? st.visited k = some w → ∃ t, pointerLike t ∧ t.norm = k ∧ w = resolve index t ∧ ∀ o, w = .ref o → D o ∨ r ≤ rank o
  inS : ∀ o, D o → S o
  closed : ∀ o p, D o → Leads index m o p → D p

/-- no two materials that are resolved have the same process -/
def Single (index : Dict (String × String) Nat) (m : Mem) : Prop := ∀ a c b, Points (resolveMem index m) "_output_material" a b →
  Points (resolveMem index m) "_output_material" c b → c = a

/-- what has happened: only entities of rank less than `r` were finished, and nothing else was changed -/
structure Post (r : Nat) (D : Nat → Prop) (st : SubSt) (D' : Nat → Prop) (st' : SubSt) : Prop where
  mono : ∀ o, D o → D' o
  new : ∀ o, D' o → D o ∨ rank o < r
  frame : ∀ o, (D' o → D o) → ∀ a, a ∉ backNames → attrAt st'.mem o a = attrAt st.mem o a
  vis : ∀ k w, Dict.get? st'.visited k = some w → Dict.get? st.visited k = some w ∨
    ∃ t, pointerLike t ∧ t.norm = k ∧ w = resolve index t ∧ ∀ o, w = .ref o → D' o
  back : Single index m → TwoWay st.mem → TwoWay st'.mem

end

section
variable {env : Env} {same : Mem → Nat → Nat → Bool} {index : Dict (String × String) Nat} {m : Mem} {S : Nat → Prop} {rank : Nat → Nat}

theorem Post.refl (r : Nat) (D : Nat → Prop) (st : SubSt) : Post index m rank r D st D st :=
  ⟨fun _ h => h, fun _ h => .inl h, fun _ _ _ _ => rfl, fun _ _ h => .inl h, fun _ h => h⟩

theorem Post.trans {r : Nat} {D D' D'' : Nat → Prop} {st st' st'' : SubSt} (h : Post index m rank r D st D' st') (h' : Post index m rank r D' st' D'' st'') :
    Post index m rank r D st D'' st'' := by
  refine ⟨fun o ho => h'.mono o (h.mono o ho), fun o ho => ?_, fun o ho a ha => ?_, fun k w hk => ?_, fun hs ht => h'.back hs (h.back hs ht)⟩
  · rcases h'.new o ho with ho | ho
    · exact h.new o ho
    · exact .inr ho
  · rw [h'.frame o (fun hd => h.mono o (ho hd)) a ha, h.frame o (fun hd => ho (h'.mono o hd)) a ha]
  · rcases h'.vis k w hk with hk | hk
    · rcases h.vis k w hk with hk | ⟨t, h1, h2, h3, h4⟩
      · exact .inl hk
      · exact .inr ⟨t, h1, h2, h3, fun o ho => h'.mono o (h4 o ho)⟩
    · exact .inr hk

theorem Post.weaken {r r' : Nat} {D D' : Nat → Prop} {st st' : SubSt} (h : Post index m rank r D st D' st') (hr : r ≤ r') : Post index m rank r' D st D' st' :=
  ⟨h.mono, fun o ho => (h.new o ho).imp_right (fun h => by omega), h.frame, h.vis, h.back⟩

/-- back to where more is being changed -/
theorem Inv.raise {r r' : Nat} {D D' : Nat → Prop} {st st' : SubSt} (h : Inv index m S rank r D st) {b : Nat} (hp : Post index m rank b D st D' st')
    (h' : Inv index m S rank r' D' st') : Inv index m S rank r D' st' := by
  refine ⟨h'.sk, h'.btw, h'.done, fun o ho hr a ha => ?_, fun k w hk => ?_, h'.inS, h'.closed⟩
  · rw [hp.frame o (fun hd => absurd hd ho) a ha]
    exact h.orig o (fun hd => ho (hp.mono o hd)) hr a ha
  · rcases hp.vis k w hk with hk | ⟨t, h1, h2, h3, h4⟩
    · obtain ⟨t, h1, h2, h3, h4⟩ := h.vis k w hk
      exact ⟨t, h1, h2, h3, fun o ho => (h4 o ho).imp_left (hp.mono o)⟩
    · exact ⟨t, h1, h2, h3, fun o ho => .inl (h4 o ho)⟩

theorem norm_inj {t t' : V} (h : pointerLike t) (h' : pointerLike t') (e : t.norm = t'.norm) : t = t' := by
  cases t <;> simp [pointerLike] at h <;> cases t' <;> simp [pointerLike] at h' <;> simp [V.norm] at e
  · simp [e]
  · simp [e]

theorem hash_pointer {t : V} (h : pointerLike t) : t.hash = .key t.norm := by
  cases t <;> simp [pointerLike] at h <;> simp [V.hash, V.norm]

theorem grows_inv {r : Nat} {D : Nat → Prop} {st : SubSt} (hW : WellTyped env m) (h : Inv index m S rank r D st) : Grows (resolveMem index m) st.mem := by
  intro o y hy
  have hy' : ∃ x, m[o]? = some x := by
    simp only [resolveMem, List.getElem?_map] at hy
    cases hx : m[o]? with
    | none => simp [hx] at hy
    | some x => exact ⟨x, rfl⟩
  obtain ⟨x, hx⟩ := hy'
  obtain ⟨z, hz, hsk⟩ := skel_at h.sk hx
  have hc : y.cls = x.cls := by
    have := resolveMem_cls index m o
    simpa [clsAt, hx, hy] using this
  refine ⟨z, hz, by rw [hc]; exact congrArg Prod.fst hsk, fun b hb => ?_⟩
  have h1 : attrAt (resolveMem index m) o "_bounds" = some b := by simp only [attrAt, hy]; exact hb
  rw [resolveMem_attr index m o (by decide)] at h1
  cases h0 : attrAt m o "_bounds" with
  | none => simp [h0] at h1
  | some b0 =>
    have hfix : resolve index b0 = b0 := bounds_fixed hW h0
    simp only [h0, Option.map_some, Option.some.injEq, hfix] at h1
    subst h1
    have h2 : attrAt st.mem o "_bounds" = some b0 := by
      rcases h.btw o "_bounds" (by decide) with e | e
      · rw [e, h0]
      · rw [e, h0, Option.map_some, hfix]
    simpa only [attrAt, hz] using h2

/-! ## Values -/

/-- what is assumed of changing entities of rank less than `r` -/
def ExpandsI (index : Dict (String × String) Nat) (m : Mem) (S : Nat → Prop) (rank : Nat → Nat) (expand : Nat → SubSt → Except PyErr SubSt) (r : Nat) : Prop :=
  ∀ o, S o → rank o < r → ∀ st D, Inv index m S rank (rank o) D st → (¬ D o → ∀ a, a ∉ backNames → attrAt st.mem o a = attrAt m o a) →
    ∃ st' D', expand o st = .ok st' ∧ Inv index m S rank (rank o) D' st' ∧ Post index m rank (rank o + 1) D st D' st' ∧ D' o

/-- a value that can be gone through -/
structure TakesI (env : Env) (index : Dict (String × String) Nat) (m : Mem) (S : Nat → Prop) (rank : Nat → Nat) (r : Nat) (v : V) : Prop where
  plain : Plain v
  ok : okV env (resolveMem index m) (resolve index v)
  refs : ∀ o, V.ref o ∈ (resolve index v).subs → S o ∧ rank o < r

section
variable {expand : Nat → SubSt → Except PyErr SubSt} {r : Nat}

theorem remember_inv {t : V} (ht : pointerLike t) {D : Nat → Prop} {st : SubSt} (h : Inv index m S rank r D st) {r' : Nat} (hr : r' ≤ r)
    (hw : ∀ o, resolve index t = .ref o → D o ∨ r' ≤ rank o) : Inv index m S rank r' D (remember t (resolve index t) st) := by
  have hm : (remember t (resolve index t) st).mem = st.mem := remember_mem _ _ _
  refine ⟨by rw [hm]; exact h.sk, by rw [hm]; exact h.btw, by rw [hm]; exact h.done, ?_, fun k w hk => ?_, h.inS, h.closed⟩
  · rw [hm]
    exact fun o ho hlt a ha => h.orig o ho (by omega) a ha
  · rcases remember_get (hash_pointer ht) hk with ⟨rfl, rfl⟩ | ⟨_, hk⟩
    · exact ⟨t, ht, rfl, rfl, hw⟩
    · obtain ⟨t', h1, h2, h3, h4⟩ := h.vis k w hk
      exact ⟨t', h1, h2, h3, fun o ho => (h4 o ho).imp_right (fun h => by omega)⟩

/-- an entity or a link -/
theorem leaf_objects (hE : ExpandsI index m S rank expand r) {t : V} (ht : pointerLike t) (hr : ∀ o, resolve index t = .ref o → S o ∧ rank o < r)
    {D : Nat → Prop} {st : SubSt} (h : Inv index m S rank r D st) :
    ∃ st' D', leaf (objectRepl index) expand t st = .ok (resolve index t, st') ∧ Inv index m S rank r D' st' ∧ Post index m rank r D st D' st' ∧
      ∀ o, resolve index t = .ref o → D' o := by
  have hp : pointerLike (resolve index t) := by
    cases t <;> simp [pointerLike] at ht
    · exact pointerLike_meaning index _ _
    · trivial
  unfold leaf
  cases hrec : recall t st with
  | some w =>
    simp only
    rw [recall, hash_pointer ht] at hrec
    obtain ⟨t', h1, h2, h3, h4⟩ := h.vis _ _ hrec
    have e := norm_inj h1 ht h2
    subst e
    subst h3
    refine ⟨st, D, rfl, h, Post.refl _ _ _, fun o ho => ?_⟩
    rcases h4 o ho with hd | hd
    · exact hd
    · have := (hr o ho).2; omega
  | none =>
    simp only
    have hrepl : ∃ q, objectRepl index st.mem t = .ok q ∧ q.getD t = resolve index t := by
      cases t <;> simp [pointerLike] at ht
      · rename_i s i
        simp only [objectRepl, resolve, put, meaning]
        cases hg : Dict.get? index (s, i) <;> exact ⟨_, rfl, rfl⟩
      · exact ⟨none, rfl, rfl⟩
    obtain ⟨q, hq, hqe⟩ := hrepl
    rw [hq]
    simp only [hqe]
    cases hw : resolve index t with
    | ref o =>
      obtain ⟨hS, hlt⟩ := hr o hw
      have hi := remember_inv ht h (r' := rank o) (by omega) (fun o' ho' => by rw [hw] at ho'; cases ho'; exact .inr (Nat.le_refl _))
      rw [hw] at hi
      have hmem : (remember t (.ref o) st).mem = st.mem := remember_mem _ _ _
      obtain ⟨st', D', e, h1, h2, h3⟩ := hE o hS hlt _ D hi (by rw [hmem]; exact fun hd a ha => h.orig o hd hlt a ha)
      have hpost : Post index m rank r D st D' st' := by
        refine ⟨h2.mono, fun p hp' => (h2.new p hp').imp_right (fun h => by omega), fun p hp' a ha => by rw [h2.frame p hp' a ha, hmem], fun k w hk => ?_,
          fun hs htw => h2.back hs (by rw [hmem]; exact htw)⟩
        rcases h2.vis k w hk with hk | hk
        · rcases remember_get (hash_pointer ht) hk with ⟨rfl, rfl⟩ | ⟨_, hk⟩
          · exact .inr ⟨t, ht, rfl, hw.symm, fun o' ho' => by cases ho'; exact h3⟩
          · exact .inl hk
        · exact .inr hk
      refine ⟨st', D', ?_, h.raise hpost h1, hpost, fun o' ho' => by cases ho'; exact h3⟩
      simp only [into, e]
    | link s i =>
      have hi := remember_inv ht h (Nat.le_refl r) (fun o' ho' => by rw [hw] at ho'; cases ho')
      rw [hw] at hi
      have hmem : (remember t (.link s i) st).mem = st.mem := remember_mem _ _ _
      refine ⟨_, D, rfl, hi, ⟨fun _ h => h, fun _ h => .inl h, fun p _ a _ => by rw [hmem], fun k w hk => ?_, fun _ htw => by rw [hmem]; exact htw⟩, fun o' ho' => by cases ho'⟩
      rcases remember_get (hash_pointer ht) hk with ⟨rfl, rfl⟩ | ⟨_, hk⟩
      · exact .inr ⟨t, ht, rfl, hw.symm, fun o' ho' => by cases ho'⟩
      · exact .inl hk
    | _ => rw [hw] at hp; simp [pointerLike] at hp

mutual
theorem subI_objects (hW : WellTyped env m) (hE : ExpandsI index m S rank expand r) (v : V) (hT : TakesI env index m S rank r v) (st : SubSt) (D : Nat → Prop)
    (h : Inv index m S rank r D st) :
    ∃ st' D', subI env (objectRepl index) expand v st = .ok (resolve index v, st') ∧ Inv index m S rank r D' st' ∧ Post index m rank r D st D' st' ∧
      ∀ o, V.ref o ∈ (resolve index v).subs → D' o := by
  cases v with
  | list l =>
    obtain ⟨h1, h2, h3⟩ := hT
    simp only [Plain] at h1
    simp only [resolve, put, okV] at h2
    obtain ⟨st', D', e, h4, h5, h6⟩ := subIs_objects hW hE l h1 h2 (fun o ho => h3 o (by simp [resolve, put, V.subs, ho])) st D h
    refine ⟨st', D', by simp only [subI, e]; rfl, h4, h5, fun o ho => h6 o ?_⟩
    simpa [resolve, put, V.subs] using ho
  | tuple l => exact absurd hT.plain (by simp [Plain])
  | dict ks vs =>
    obtain ⟨h1, h2, h3⟩ := hT
    simp only [Plain] at h1
    obtain ⟨⟨names, rfl, hn, hl⟩, h1⟩ := h1
    simp only [resolve, put, okV] at h2
    have hks : ∀ ns : List String, ∀ st, subIs env (objectRepl index) expand (ns.map .str) st = .ok (ns.map .str, st) := by
      intro ns
      induction ns with
      | nil => intro st; rfl
      | cons n ns ih => intro st; simp [subIs, subI, ih]
    obtain ⟨st', D', e, h4, h5, h6⟩ := subIs_objects hW hE vs h1 h2 (fun o ho => h3 o (by simp [resolve, put, V.subs, ho])) st D h
    refine ⟨st', D', ?_, h4, h5, fun o ho => h6 o ?_⟩
    · simp only [subI, hks, e]
      rw [setDict_values hn hl (by rw [hl, puts_eq, List.length_map])]
      rfl
    · simp only [resolve, put, V.subs, List.mem_cons, reduceCtorEq, false_or, List.mem_append] at ho
      rcases ho with ho | ho
      · obtain ⟨w, hw, ho⟩ := mem_subss.1 ho
        obtain ⟨s, _, rfl⟩ := List.mem_map.1 hw
        simp [V.subs] at ho
      · exact ho
  | obj t ns vs =>
    obtain ⟨h1, h2, h3⟩ := hT
    simp only [Plain] at h1
    simp only [resolve, put, okV] at h2
    obtain ⟨st', D', e, h4, h5, h6⟩ := subIs_objects hW hE vs h1.2 h2.2 (fun o ho => h3 o (by simp [resolve, put, V.subs, ho])) st D h
    refine ⟨st', D', ?_, h4, h5, fun o ho => h6 o (by simpa [resolve, put, V.subs] using ho)⟩
    have hstable : Stable env st'.mem t ns (puts .ref (meaning index) vs) := by
      have : okV env st'.mem (.obj t ns (puts .ref (meaning index) vs)) := okV_grows (grows_inv hW h4) _ (by simp only [okV]; exact h2)
      simp only [okV] at this
      exact this.1
    simp only [subI, e]
    rw [setObj_ok h1.1.symm hstable]
    rfl
  | link s i =>
    obtain ⟨st', D', e, h4, h5, h6⟩ := leaf_objects hE (t := .link s i) trivial (fun o ho => hT.refs o (by rw [ho]; simp [V.subs])) h
    refine ⟨st', D', by simp only [subI, e], h4, h5, fun o ho => h6 o ?_⟩
    have hp := pointerLike_meaning index s i
    simp only [resolve, put] at ho ⊢
    cases hm : meaning index s i <;> simp [hm, pointerLike] at hp <;> simp [hm, V.subs] at ho
    rw [ho]
  | ref p =>
    obtain ⟨st', D', e, h4, h5, h6⟩ := leaf_objects hE (t := .ref p) trivial (fun o ho => hT.refs o (by rw [ho]; simp [V.subs])) h
    refine ⟨st', D', by simp only [subI, e], h4, h5, fun o ho => h6 o ?_⟩
    simp only [resolve, put, V.subs, List.mem_singleton] at ho ⊢
    rw [ho]
  | none => exact ⟨st, D, rfl, h, Post.refl _ _ _, fun o ho => by simp [resolve, put, V.subs] at ho⟩
  | bool b => exact ⟨st, D, rfl, h, Post.refl _ _ _, fun o ho => by simp [resolve, put, V.subs] at ho⟩
  | int i => exact ⟨st, D, rfl, h, Post.refl _ _ _, fun o ho => by simp [resolve, put, V.subs] at ho⟩
  | float q => exact ⟨st, D, rfl, h, Post.refl _ _ _, fun o ho => by simp [resolve, put, V.subs] at ho⟩
  | str s => exact ⟨st, D, rfl, h, Post.refl _ _ _, fun o ho => by simp [resolve, put, V.subs] at ho⟩
termination_by structural v
theorem subIs_objects (hW : WellTyped env m) (hE : ExpandsI index m S rank expand r) (l : List V) (h1 : Plains l)
    (h2 : okVs env (resolveMem index m) (puts .ref (meaning index) l)) (h3 : ∀ o, V.ref o ∈ subss (puts .ref (meaning index) l) → S o ∧ rank o < r)
    (st : SubSt) (D : Nat → Prop) (h : Inv index m S rank r D st) :
    ∃ st' D', subIs env (objectRepl index) expand l st = .ok (puts .ref (meaning index) l, st') ∧ Inv index m S rank r D' st' ∧ Post index m rank r D st D' st' ∧
      ∀ o, V.ref o ∈ subss (puts .ref (meaning index) l) → D' o := by
  cases l with
  | nil => exact ⟨st, D, rfl, h, Post.refl _ _ _, fun o ho => by simp [puts, subss] at ho⟩
  | cons v vs =>
    simp only [Plains] at h1
    simp only [puts, okVs] at h2
    obtain ⟨st1, D1, e1, i1, p1, r1⟩ := subI_objects hW hE v ⟨h1.1, h2.1, fun o ho => h3 o (by simp only [puts, subss, List.mem_append]; exact .inl ho)⟩ st D h
    obtain ⟨st2, D2, e2, i2, p2, r2⟩ := subIs_objects hW hE vs h1.2 h2.2 (fun o ho => h3 o (by simp only [puts, subss, List.mem_append]; exact .inr ho)) st1 D1 i1
    refine ⟨st2, D2, by simp only [subIs, e1, e2]; rfl, i2, p1.trans p2, fun o ho => ?_⟩
    simp only [puts, subss, List.mem_append] at ho
    rcases ho with ho | ho
    · exact p2.mono o (r1 o ho)
    · exact r2 o ho
termination_by structural l
end

end

/-! ## The attributes of an entity -/

theorem names_nodup (c : ECls) : ((eargs c).map EArg.attr ++ (ownFields c).map Prod.fst).Nodup := by
  cases c <;> decide +kernel

theorem names_skip (c : ECls) : ∀ n ∈ (eargs c).map EArg.attr ++ (ownFields c).map Prod.fst, n ∈ backNames → n ∈ skip c := by
  cases c <;> decide +kernel

theorem typed_names (hW : WellTyped env m) {o : Nat} {x : EObj} (hx : m[o]? = some x) :
    x.fields.map Prod.fst = (eargs x.cls).map EArg.attr ++ (ownFields x.cls).map Prod.fst := by
  obtain ⟨vals, own, hs, _⟩ := hW o x hx
  rw [hs.fields, List.map_append, hs.own, List.map_fst_zip (by simp [hs.len])]

theorem spec_name (hW : WellTyped env m) {p : Nat} (hc : clsAt m p = some .ingredientSpec) {v : V} (hv : attrAt m p "_name" = some v) : nameLike v := by
  have h := (fits_of_typed hW hc hv (by decide)).conv
  have hk : kindOf .ingredientSpec "_name" = .str := by decide +kernel
  rw [hk] at h
  simp only [conv] at h
  cases v <;> simp [convStr] at h
  exact .inr rfl

theorem spec_labels (hW : WellTyped env m) {p : Nat} (hc : clsAt m p = some .ingredientSpec) {v : V} (hv : attrAt m p "_labels" = some v) : labelsLike v := by
  have h := (fits_of_typed hW hc hv (by decide)).conv
  have hk : kindOf .ingredientSpec "_labels" = .strList := by decide +kernel
  rw [hk] at h
  simp only [conv, convList] at h
  split at h
  · rename_i hall
    simp only [Except.ok.injEq] at h
    exact .inr ⟨members v, h.symm, fun w hw => List.all_eq_true.1 hall w hw⟩
  · cases h

theorem labels_ok {v : V} (h : labelsLike v) : okV env m v := by
  rcases h with rfl | ⟨l, rfl, h⟩
  · simp [okV]
  · simp only [okV]
    refine (okVs_iff env m l).2 (fun w hw => ?_)
    have := h w hw
    cases w <;> simp [isStr] at this <;> simp [okV]

theorem name_ok {v : V} (h : nameLike v) : okV env m v := by
  rcases h with rfl | h
  · simp [okV]
  · cases v <;> simp [isStr] at h <;> simp [okV]

/-- a value without entities and links -/
structure Inert (env : Env) (index : Dict (String × String) Nat) (m : Mem) (v : V) : Prop where
  fixed : ∀ {f : Nat → V} {g : String → String → V}, put f g v = v
  plain : Plain v
  ok : okV env (resolveMem index m) v
  refs : ∀ p, V.ref p ∉ v.subs

theorem inert_name {v : V} (h : nameLike v) : Inert env index m v := ⟨put_name h, plain_name h, name_ok h, name_subs h⟩
theorem inert_labels {v : V} (h : labelsLike v) : Inert env index m v := ⟨put_labels h, plain_labels h, labels_ok h, labels_subs h⟩

theorem back_or {r : Nat} {D : Nat → Prop} {st : SubSt} (h : Inv index m S rank r D st) {o : Nat} {a : String} (ha : a ∉ backNames) {u : V}
    (hu : attrAt st.mem o a = some u) : ∃ u0, attrAt m o a = some u0 ∧ (u = u0 ∨ u = resolve index u0) := by
  rcases h.btw o a ha with e | e
  · exact ⟨u, by rw [← e, hu], .inl rfl⟩
  · rw [hu] at e
    cases h0 : attrAt m o a with
    | none => rw [h0] at e; cases e
    | some u0 => rw [h0] at e; exact ⟨u0, rfl, .inr (by simpa using e)⟩

theorem getattr_cases (hW : WellTyped env m) {r : Nat} {D : Nat → Prop} {st : SubSt} (h : Inv index m S rank r D st) {o : Nat} {x : EObj} (hx : st.mem[o]? = some x)
    {a : String} {u : V} (hu : attrAt st.mem o a = some u) :
    getattr st.mem x (a, u) = u ∨ (Inert env index m u ∧ Inert env index m (getattr st.mem x (a, u))) := by
  have hcx : clsAt m o = some x.cls := by rw [← clsAt_skel h.sk o]; simp [clsAt, hx]
  by_cases hi : x.cls = .ingredientRun ∧ (a = "_name" ∨ a = "_labels")
  · obtain ⟨hi, ha⟩ := hi
    have hb : a ∉ backNames := by rcases ha with rfl | rfl <;> decide
    obtain ⟨u0, h0, h1⟩ := back_or h hb hu
    have hf := fits_of_typed hW hcx h0 hb
    have hu' : Inert env index m u := by
      have h2 : Inert env index m u0 := by
        rcases ha with rfl | rfl
        · exact inert_name (hf.name hi rfl)
        · exact inert_labels (hf.labels hi rfl)
      rcases h1 with rfl | rfl
      · exact h2
      · rw [resolve, h2.fixed]; exact h2
    unfold getattr
    rw [if_pos ⟨hi, ha⟩]
    split
    · rename_i p hs
      split
      · rename_i y hy
        split
        · rename_i hcy
          refine .inr ⟨hu', ?_⟩
          have hcy' : clsAt m p = some .ingredientSpec := by rw [← clsAt_skel h.sk p]; simp [clsAt, hy, hcy]
          cases hg : Dict.get? y.fields a with
          | none => exact inert_name (.inl rfl)
          | some w =>
            have hw : attrAt st.mem p a = some w := by simp [attrAt, hy, hg]
            obtain ⟨w0, hw0, hw1⟩ := back_or h hb hw
            have h2 : Inert env index m w0 := by
              rcases ha with rfl | rfl
              · exact inert_name (spec_name hW hcy' hw0)
              · exact inert_labels (spec_labels hW hcy' hw0)
            rcases hw1 with rfl | rfl
            · exact h2
            · simp only [Option.getD_some]
              rw [resolve, h2.fixed]; exact h2
        · exact .inl rfl
      · exact .inl rfl
    · exact .inl rfl
  · exact .inl (by unfold getattr; rw [if_neg hi])

/-- an entry of `as_dict()`, when it is substituted -/
structure Entry (env : Env) (index : Dict (String × String) Nat) (m : Mem) (S : Nat → Prop) (rank : Nat → Nat) (o : Nat) (mem : Mem) (f : String × V) : Prop where
  fwd : f.1 ∉ backNames
  takes : TakesI env index m S rank (rank o) f.2
  stored : ∃ u, attrAt mem o f.1 = some u ∧ (u = f.2 ∨ (Inert env index m u ∧ Inert env index m f.2))

theorem stored_attr {r : Nat} {D : Nat → Prop} {st : SubSt} (h : Inv index m S rank r D st) {o : Nat} {a : String} (ha : a ∉ backNames) {v : V}
    (hu : ∃ u, attrAt st.mem o a = some u ∧ (u = v ∨ (Inert env index m u ∧ Inert env index m v))) (hne : resolve index v ≠ v) :
    attrAt st.mem o a = some v ∧ attrAt m o a = some v ∧ ¬ D o := by
  obtain ⟨u, hu, h1⟩ := hu
  rcases h1 with rfl | ⟨_, h2⟩
  · obtain ⟨u0, h0, h1⟩ := back_or h ha hu
    rcases h1 with rfl | rfl
    · refine ⟨hu, h0, fun hd => hne ?_⟩
      have := h.done o hd a ha
      rw [hu, h0] at this
      simpa using this.symm
    · exact absurd (resolve_resolve index u0) hne
  · exact absurd h2.fixed hne

end

section
variable {env : Env} {same : Mem → Nat → Nat → Bool} {index : Dict (String × String) Nat} {m : Mem} {v : V} {rank : Nat → Nat}

theorem entries (hR : Ready env index m v rank) {o : Nat} (ho : Reached index m v o) {r : Nat} {D : Nat → Prop} {st : SubSt}
    (h : Inv index m (Reached index m v) rank r D st) {x : EObj} (hx : st.mem[o]? = some x) :
    ((shown st.mem x).map Prod.fst).Nodup ∧ (∀ f ∈ shown st.mem x, Entry env index m (Reached index m v) rank o st.mem f) ∧
      ∀ a u, a ∉ backNames → attrAt m o a = some u → ∃ w, (a, w) ∈ shown st.mem x ∧ (resolve index w = resolve index u ∨ ∀ p, V.ref p ∉ (resolve index u).subs) := by
  obtain ⟨x0, hx0, hsk⟩ : ∃ x0, m[o]? = some x0 ∧ skel x0 = skel x := skel_at h.sk.symm hx
  have hnames : x.fields.map Prod.fst = (eargs x.cls).map EArg.attr ++ (ownFields x.cls).map Prod.fst := by
    have e1 : x0.cls = x.cls := congrArg Prod.fst hsk
    have e2 : x0.fields.map Prod.fst = x.fields.map Prod.fst := congrArg (fun s => s.2.2) hsk
    rw [← e2, ← e1]
    exact typed_names hR.typed hx0
  have hnd : (x.fields.map Prod.fst).Nodup := by rw [hnames]; exact names_nodup _
  have hfwd : ∀ f ∈ x.fields, f.1 ∉ skip x.cls → f.1 ∉ backNames := by
    intro f hf hs hb
    exact hs (names_skip _ _ (by rw [← hnames]; exact List.mem_map.2 ⟨f, hf, rfl⟩) hb)
  have hclsx : clsAt m o = some x.cls := by rw [← clsAt_skel h.sk o]; simp [clsAt, hx]
  refine ⟨?_, ?_, ?_⟩
  · have : (shown st.mem x).map Prod.fst = (x.fields.map Prod.fst).filter (fun n => decide (n ∉ skip x.cls)) := by
      simp [shown, List.map_map, Function.comp_def, List.filter_map]
    rw [this]
    exact hnd.filter _
  · intro f hf
    obtain ⟨g, hg, rfl⟩ := List.mem_map.1 hf
    obtain ⟨hg, hsk'⟩ := List.mem_filter.1 hg
    have hsk' : g.1 ∉ skip x.cls := by simpa using hsk'
    have hb := hfwd g hg hsk'
    have hu : attrAt st.mem o g.1 = some g.2 := by simp only [attrAt, hx]; exact Dict.get?_of_mem hnd hg
    have hgc := getattr_cases (env := env) hR.typed h hx hu
    refine ⟨hb, ?_, g.2, hu, ?_⟩
    · rcases hgc with e | ⟨_, hi⟩
      · simp only
        rw [e]
        obtain ⟨u0, h0, h1⟩ := back_or h hb hu
        have hres : resolve index g.2 = resolve index u0 := by
          rcases h1 with e | e
          · rw [e]
          · rw [e, resolve_resolve]
        have hpl := hR.plains o g.1 u0 ho hb h0
        refine ⟨?_, ?_, fun p hp => ?_⟩
        · rcases h1 with e | e
          · rw [e]; exact hpl
          · rw [e]; exact plain_put (resolve_pointers index) _ hpl
        · rw [hres]
          refine (fits_of_typed hR.typed' (o := o) (c := x.cls) (a := g.1) (by rw [resolveMem_cls]; exact hclsx) ?_ hb).ok
          rw [resolveMem_attr index m o hb, h0, Option.map_some]
        · have hl : Leads index m o p := ⟨g.1, u0, hb, h0, by rw [← hres]; exact hp⟩
          exact ⟨.next ho hl, hR.order o p ho hl⟩
      · refine ⟨hi.plain, ?_, fun p hp => ?_⟩
        · rw [resolve, hi.fixed]; exact hi.ok
        · rw [resolve, hi.fixed] at hp; exact absurd hp (hi.refs p)
    · rcases hgc with e | hi
      · exact .inl e.symm
      · exact .inr hi
  · intro a u hb hu
    obtain ⟨u', hu'⟩ : ∃ u', attrAt st.mem o a = some u' := by
      rcases h.btw o a hb with e | e
      · exact ⟨u, by rw [e, hu]⟩
      · exact ⟨_, by rw [e, hu]; rfl⟩
    have hmem : (a, u') ∈ x.fields := by
      simp only [attrAt, hx] at hu'
      exact Dict.mem_of_get? hu'
    have hs : a ∉ skip x.cls := fun hs => hb (skip_back _ _ hs)
    refine ⟨getattr st.mem x (a, u'), List.mem_map.2 ⟨(a, u'), List.mem_filter.2 ⟨hmem, by simpa using hs⟩, rfl⟩, ?_⟩
    obtain ⟨u0, h0, h1⟩ := back_or h hb hu'
    rw [hu] at h0
    cases h0
    have hres : resolve index u' = resolve index u := by
      rcases h1 with e | e
      · rw [e]
      · rw [e, resolve_resolve]
    rcases getattr_cases (env := env) hR.typed h hx hu' with e | ⟨hi, _⟩
    · exact .inl (by rw [e, hres])
    · refine .inr (fun p hp => ?_)
      rw [← hres, resolve, hi.fixed] at hp
      exact hi.refs p hp

/-! ## One attribute is set -/

/-- two-way links are targets -/
theorem kind_back (c : ECls) (there back : String) (h : backRef c = some (there, back)) : ∃ cs, kindOf c there = .target cs := by
  have key : ∀ c : ECls, ((backRef c).all fun e => match kindOf c e.1 with | .target _ => true | _ => false) = true := by
    intro c; cases c <;> decide +kernel
  have := key c
  rw [h] at this
  simp only [Option.all_some] at this
  split at this
  · exact ⟨_, ‹_›⟩
  · cases this

theorem kind_spec : ∃ cs, kindOf .ingredientRun "_spec" = .target cs := ⟨[.ingredientSpec], by decide +kernel⟩

/-- a target that changes is a link, and is replaced by an entity -/
theorem target_changed {cs : List ECls} {v : V} (h : convTarget m cs v = .ok v) (hne : resolve index v ≠ v) : (∃ s i, v = .link s i) ∧ ∃ p, resolve index v = .ref p := by
  cases v <;> simp [convTarget, isLink, isCls] at h
  · exact absurd rfl hne
  · rename_i s i
    refine ⟨⟨s, i, rfl⟩, ?_⟩
    simp only [resolve, put, meaning] at hne ⊢
    cases hg : Dict.get? index (s, i) with
    | none => simp [hg] at hne
    | some p => exact ⟨p, rfl⟩
  · exact absurd rfl hne

/-- what setting an attribute does -/
structure SetOk (index : Dict (String × String) Nat) (m mem : Mem) (o : Nat) (c : ECls) (a : String) (w : V) (mem' : Mem) : Prop where
  sk : mem'.map skel = mem.map skel
  here : attrAt mem' o a = some w
  other : ∀ p b, b ∉ backNames → (p, b) ≠ (o, a) → attrAt mem' p b = attrAt mem p b
  back : Single index m → TwoWay mem → TwoWay mem'

theorem setAttr_objects (hW : WellTyped env m) (hW' : WellTyped env (resolveMem index m)) {S : Nat → Prop} {r : Nat} {D : Nat → Prop} {st : SubSt}
    (h : Inv index m S rank r D st) {o : Nat} {c : ECls} (hc : clsAt m o = some c) {a : String} (ha : a ∉ backNames) {v : V}
    (h0 : attrAt m o a = some v) (h1 : attrAt st.mem o a = some v) (hne : resolve index v ≠ v) :
    ∃ m', setAttr env same st.mem o c a (resolve index v) = .ok m' ∧ SetOk index m st.mem o c a (resolve index v) m' := by
  have hf0 := fits_of_typed hW hc h0 ha
  have hM : attrAt (resolveMem index m) o a = some (resolve index v) := by rw [resolveMem_attr index m o ha, h0]; rfl
  have hf := fits_of_typed hW' (o := o) (c := c) (by rw [resolveMem_cls]; exact hc) hM ha
  have hrange : rangeOk (kindOf c a) := by
    unfold kindOf
    split
    · rename_i b hb
      exact (eargs_kinds c b (List.mem_of_find?_eq_some hb)).1
    · trivial
  have hconv := conv_grows (grows_inv hW h) hrange hf.conv
  have hunlink : unlink same st.mem o c a = .ok st.mem := by
    unfold unlink
    split
    · rfl
    · rename_i there back hb
      split
      · rename_i e
        subst e
        obtain ⟨cs, hk⟩ := kind_back c _ _ hb
        have := hf0.conv
        rw [hk] at this
        obtain ⟨⟨s, i, rfl⟩, _⟩ := target_changed (index := index) (by simpa only [conv] using this) hne
        rw [h1]
      · rfl
  have hkeep : keepNames st.mem o c a = st.mem := by
    unfold keepNames
    split
    · rename_i e
      obtain ⟨rfl, rfl⟩ := e
      obtain ⟨cs, hk⟩ := kind_spec
      have := hf0.conv
      rw [hk] at this
      obtain ⟨⟨s, i, rfl⟩, _⟩ := target_changed (index := index) (by simpa only [conv] using this) hne
      rw [h1]
    · rfl
  refine ⟨_, by simp only [setAttr, hconv, hunlink, hkeep]; rfl, ?_⟩
  have hset : ∀ p b, attrAt (setField st.mem o a (fun _ => resolve index v)) p b = if p = o ∧ b = a then some (resolve index v) else attrAt st.mem p b := by
    intro p b
    rw [attrAt_setField, h1]
    rfl
  by_cases hb : ∃ back, backRef c = some (a, back)
  · obtain ⟨back, hb⟩ := hb
    have hbn := backRef_names hb
    obtain ⟨cs, hk⟩ := kind_back c _ _ hb
    have hcv := hf0.conv
    rw [hk] at hcv
    obtain ⟨⟨s, i, hv⟩, p, hp⟩ := target_changed (index := index) (by simpa only [conv] using hcv) hne
    have htell : tell (setField st.mem o a (fun _ => resolve index v)) o c a (resolve index v) =
        setField (setField st.mem o a (fun _ => resolve index v)) p back (if back = "_output_material" then fun _ => .ref o else appendTo (.ref o)) := by
      simp only [tell, hb, if_true, hp]
    rw [htell]
    have hfwd : ∀ q b, b ∉ backNames → attrAt (setField (setField st.mem o a (fun _ => resolve index v)) p back
        (if back = "_output_material" then fun _ => .ref o else appendTo (.ref o))) q b = if q = o ∧ b = a then some (resolve index v) else attrAt st.mem q b := by
      intro q b hb'
      rw [attrAt_setField, if_neg (fun e => hb' (by rw [e.2]; exact hbn)), hset]
    refine ⟨by rw [setField_skel, setField_skel], by rw [hfwd o a ha, if_pos ⟨rfl, rfl⟩], fun q b hb' hqb => ?_, fun hs htw => ?_⟩
    · rw [hfwd q b hb', if_neg (fun e => hqb (by rw [e.1, e.2]))]
    · have hsk : ∀ q, clsAt (setField (setField st.mem o a (fun _ => resolve index v)) p back
          (if back = "_output_material" then fun _ => .ref o else appendTo (.ref o))) q = clsAt m q := by
        intro q
        exact clsAt_skel (by rw [setField_skel, setField_skel]; exact h.sk) q
      have hcst : ∀ q, clsAt st.mem q = clsAt m q := clsAt_skel h.sk
      -- who points where afterwards
      have hpts : ∀ n q b, Points (setField (setField st.mem o a (fun _ => resolve index v)) p back
          (if back = "_output_material" then fun _ => .ref o else appendTo (.ref o))) n q b ↔ Points st.mem n q b ∨ (q = o ∧ b = p ∧ n = back) := by
        intro n q b
        rw [points_attr, points_attr]
        constructor
        · rintro ⟨c', there, e1, e2, e3⟩
          rw [hfwd q there (backRef_there e2)] at e3
          split at e3
          · rename_i e
            obtain ⟨rfl, rfl⟩ := e
            rw [hsk, hc] at e1
            cases e1
            rw [hb] at e2
            cases e2
            rw [hp] at e3
            cases e3
            exact .inr ⟨rfl, rfl, rfl⟩
          · exact .inl ⟨c', there, by rw [hcst, ← hsk]; exact e1, e2, e3⟩
        · rintro (⟨c', there, e1, e2, e3⟩ | ⟨rfl, rfl, rfl⟩)
          · refine ⟨c', there, by rw [hsk, ← hcst]; exact e1, e2, ?_⟩
            rw [hfwd q there (backRef_there e2), if_neg]
            · exact e3
            · rintro ⟨rfl, rfl⟩
              rw [h1, hv] at e3
              cases e3
          · exact ⟨c, a, by rw [hsk]; exact hc, hb, by rw [hfwd _ a ha, if_pos ⟨rfl, rfl⟩, hp]⟩
      have hno : ∀ n b, ¬ Points st.mem n o b ∨ n ≠ back := by
        intro n b
        by_cases en : n = back
        · subst en
          refine .inl (fun hpt => ?_)
          obtain ⟨c', there, e1, e2, e3⟩ := points_attr.1 hpt
          rw [hcst, hc] at e1
          cases e1
          rw [hb] at e2
          cases e2
          rw [h1, hv] at e3
          cases e3
        · exact .inr en
      -- and with all links resolved
      have hup : ∀ n q b, Points st.mem n q b → Points (resolveMem index m) n q b := by
        intro n q b hpt
        obtain ⟨c', there, e1, e2, e3⟩ := points_attr.1 hpt
        refine points_attr.2 ⟨c', there, by rw [resolveMem_cls, ← hcst]; exact e1, e2, ?_⟩
        rw [resolveMem_attr index m q (backRef_there e2)]
        obtain ⟨u0, f1, f2⟩ := back_or h (backRef_there e2) e3
        rw [f1, Option.map_some]
        rcases f2 with rfl | f2
        · rfl
        · rw [← f2]
      have hoM : Points (resolveMem index m) back o p := points_attr.2 ⟨c, a, by rw [resolveMem_cls]; exact hc, hb, by rw [hM, hp]⟩
      intro b n w hn hw
      rw [attrAt_setField] at hw
      split at hw
      · rename_i e
        obtain ⟨rfl, rfl⟩ := e
        rw [hset, if_neg (show ¬ (b = o ∧ n = a) from fun e => ha (by rw [← e.2]; exact hbn))] at hw
        cases hold : attrAt st.mem b n with
        | none => rw [hold] at hw; cases hw
        | some old =>
          rw [hold] at hw
          simp only [Option.map_some, Option.some.injEq] at hw
          have hl := htw b n old hn hold
          by_cases hbo : n = "_output_material"
          · rw [if_pos hbo] at hw
            subst hw
            subst hbo
            refine .one o rfl ((hpts _ _ _).2 (.inr ⟨rfl, rfl, rfl⟩)) (fun q hq => ?_)
            rcases (hpts _ _ _).1 hq with hq | ⟨e, _, _⟩
            · exact hs _ _ _ hoM (hup _ _ _ hq)
            · exact e
          · rw [if_neg hbo] at hw
            subst hw
            cases hl with
            | none e => exact absurd e hbo
            | one _ e => exact absurd e hbo
            | many as _ hnd hiff =>
              have : appendTo (.ref o) (.list (as.map .ref)) = .list ((as ++ [o]).map .ref) := by simp [appendTo]
              rw [this]
              have hoas : o ∉ as := fun ho => by
                rcases hno n b with h' | h'
                · exact h' ((hiff o).1 ho)
                · exact h' rfl
              refine .many _ hbo ?_ (fun q => ?_)
              · rw [List.nodup_append]
                exact ⟨hnd, by simp, fun x hx y hy e => hoas (by simp at hy; rw [← hy, ← e]; exact hx)⟩
              · rw [hpts, List.mem_append, hiff q]
                simp
      · rename_i e
        rw [hset, if_neg (fun e' => ha (by rw [← e'.2]; exact hn))] at hw
        refine (htw b n w hn hw).congr (fun q => ?_)
        rw [hpts]
        exact ⟨fun h' => h'.elim id (fun h' => absurd ⟨h'.2.1, h'.2.2⟩ e), .inl⟩
  · have htell : tell (setField st.mem o a (fun _ => resolve index v)) o c a (resolve index v) = setField st.mem o a (fun _ => resolve index v) := by
      unfold tell
      split
      · rfl
      · rename_i there back hb'
        rw [if_neg (fun e => hb ⟨back, by rw [hb', e]⟩)]
    rw [htell]
    refine ⟨setField_skel _ _ _ _, by rw [hset, if_pos ⟨rfl, rfl⟩], fun q b hb' hqb => by rw [hset, if_neg (fun e => hqb (by rw [e.1, e.2]))], fun _ htw => ?_⟩
    intro b n w hn hw
    rw [hset, if_neg (fun e => ha (by rw [← e.2]; exact hn))] at hw
    refine (htw b n w hn hw).congr (fun q => ?_)
    rw [points_attr, points_attr]
    have hsk : ∀ q, clsAt (setField st.mem o a (fun _ => resolve index v)) q = clsAt st.mem q := fun q => clsAt_skel (setField_skel _ _ _ _) q
    constructor
    · rintro ⟨c', there, e1, e2, e3⟩
      rw [hsk] at e1
      rw [hset] at e3
      split at e3
      · rename_i e
        obtain ⟨rfl, rfl⟩ := e
        rw [clsAt_skel h.sk, hc] at e1
        cases e1
        exact absurd ⟨_, e2⟩ hb
      · exact ⟨c', there, e1, e2, e3⟩
    · rintro ⟨c', there, e1, e2, e3⟩
      refine ⟨c', there, by rw [hsk]; exact e1, e2, ?_⟩
      rw [hset, if_neg]
      · exact e3
      · rintro ⟨rfl, rfl⟩
        rw [clsAt_skel h.sk, hc] at e1
        cases e1
        exact hb ⟨_, e2⟩

/-! ## All attributes of an entity -/

/-- what going through some attributes of `o` does -/
structure LoopOk (index : Dict (String × String) Nat) (m : Mem) (rank : Nat → Nat) (o : Nat) (fs : List (String × V)) (D : Nat → Prop) (st : SubSt)
    (D' : Nat → Prop) (st' : SubSt) : Prop where
  mono : ∀ p, D p → D' p
  new : ∀ p, D' p → D p ∨ rank p < rank o
  frame : ∀ p, p ≠ o → (D' p → D p) → ∀ a, a ∉ backNames → attrAt st'.mem p a = attrAt st.mem p a
  vis : ∀ k w, Dict.get? st'.visited k = some w → Dict.get? st.visited k = some w ∨
    ∃ t, pointerLike t ∧ t.norm = k ∧ w = resolve index t ∧ ∀ o, w = .ref o → D' o
  back : Single index m → TwoWay st.mem → TwoWay st'.mem
  rest : ∀ a, a ∉ backNames → a ∉ fs.map Prod.fst → attrAt st'.mem o a = attrAt st.mem o a
  set : ∀ f ∈ fs, attrAt st'.mem o f.1 = (attrAt st.mem o f.1).map (resolve index)
  refs : ∀ f ∈ fs, ∀ p, V.ref p ∈ (resolve index f.2).subs → D' p

theorem setFields_objects (hR : Ready env index m v rank) {expand : Nat → SubSt → Except PyErr SubSt} {o : Nat} {c : ECls} (hc : clsAt m o = some c)
    (hE : ExpandsI index m (Reached index m v) rank expand (rank o)) : ∀ (fs : List (String × V)) (st : SubSt) (D : Nat → Prop),
    Inv index m (Reached index m v) rank (rank o) D st → (fs.map Prod.fst).Nodup → (∀ f ∈ fs, Entry env index m (Reached index m v) rank o st.mem f) →
    ∃ st' D', setFields env same (objectRepl index) expand o c fs st = .ok st' ∧ Inv index m (Reached index m v) rank (rank o) D' st' ∧
      LoopOk index m rank o fs D st D' st' := by
  intro fs
  induction fs with
  | nil => exact fun st D h _ _ => ⟨st, D, rfl, h, fun _ h => h, fun _ h => .inl h, fun _ _ _ _ _ => rfl, fun _ _ h => .inl h, fun _ h => h, fun _ _ _ => rfl,
      fun f hf => by simp at hf, fun f hf => by simp at hf⟩
  | cons f fs ih =>
    intro st D h hnd hf
    obtain ⟨a, w⟩ := f
    simp only [List.map_cons, List.nodup_cons] at hnd
    obtain ⟨hfwd, htk, hst⟩ := hf (a, w) (by simp)
    simp only at hfwd htk hst
    obtain ⟨st1, D1, e1, i1, p1, r1⟩ := subI_objects hR.typed hE w htk st D h
    have hoD : D1 o → D o := fun hd => (p1.new o hd).resolve_right (by omega)
    have hfr : ∀ b, b ∉ backNames → attrAt st1.mem o b = attrAt st.mem o b := p1.frame o hoD
    have hst1 : ∃ u, attrAt st1.mem o a = some u ∧ (u = w ∨ (Inert env index m u ∧ Inert env index m w)) := by rw [hfr a hfwd]; exact hst
    by_cases hw : resolve index w = w
    · -- nothing to be set
      obtain ⟨st2, D2, e2, i2, l2⟩ := ih st1 D1 i1 hnd.2 (fun g hg => by
        obtain ⟨g1, g2, g3⟩ := hf g (by simp [hg])
        exact ⟨g1, g2, by rw [hfr g.1 g1]; exact g3⟩)
      refine ⟨st2, D2, ?_, i2, fun p hp => l2.mono p (p1.mono p hp), fun p hp => ?_, fun p hne hp b hb => ?_, fun k x hk => ?_, fun hs ht => l2.back hs (p1.back hs ht),
        fun b hb hn => ?_, fun g hg => ?_, fun g hg p hp => ?_⟩
      · simp only [setFields, e1]
        rw [if_pos hw]
        exact e2
      · rcases l2.new p hp with hp | hp
        · exact p1.new p hp
        · exact .inr hp
      · rw [l2.frame p hne (fun hd => p1.mono p (hp hd)) b hb, p1.frame p (fun hd => hp (l2.mono p hd)) b hb]
      · rcases l2.vis k x hk with hk | hk
        · rcases p1.vis k x hk with hk | ⟨t, h1, h2, h3, h4⟩
          · exact .inl hk
          · exact .inr ⟨t, h1, h2, h3, fun q hq => l2.mono q (h4 q hq)⟩
        · exact .inr hk
      · simp only [List.map_cons, List.mem_cons, not_or] at hn
        rw [l2.rest b hb hn.2, hfr b hb]
      · rcases List.mem_cons.1 hg with rfl | hg
        · simp only
          rw [l2.rest a hfwd hnd.1, hfr a hfwd]
          obtain ⟨u, hu, hu'⟩ := hst
          rw [hu, Option.map_some]
          rcases hu' with rfl | ⟨hu', _⟩
          · rw [hw]
          · rw [resolve, hu'.fixed]
        · rw [l2.set g hg, hfr g.1 (hf g (by simp [hg])).fwd]
      · rcases List.mem_cons.1 hg with rfl | hg
        · exact l2.mono p (r1 p hp)
        · exact l2.refs g hg p hp
    · -- the attribute is set
      obtain ⟨hs1, hs0, hnD⟩ := stored_attr i1 hfwd hst1 hw
      obtain ⟨m', e3, hset⟩ := setAttr_objects (same := same) hR.typed hR.typed' i1 hc hfwd hs0 hs1 hw
      have i3 : Inv index m (Reached index m v) rank (rank o) D1 { st1 with mem := m' } := by
        refine ⟨hset.sk.trans i1.sk, fun p b hb => ?_, fun p hp b hb => ?_, fun p hp hlt b hb => ?_, i1.vis, i1.inS, i1.closed⟩
        · by_cases e : (p, b) = (o, a)
          · cases e
            exact .inr (by rw [hs0]; exact hset.here)
          · simp only
            rw [hset.other p b hb e]
            exact i1.btw p b hb
        · simp only
          rw [hset.other p b hb (fun e => by cases e; exact hnD hp)]
          exact i1.done p hp b hb
        · simp only
          rw [hset.other p b hb (fun e => by cases e; omega)]
          exact i1.orig p hp hlt b hb
      have hoth : ∀ b, b ∉ backNames → b ≠ a → attrAt m' o b = attrAt st.mem o b := by
        intro b hb hne
        rw [hset.other o b hb (fun e => by cases e; exact hne rfl), hfr b hb]
      obtain ⟨st2, D2, e2, i2, l2⟩ := ih { st1 with mem := m' } D1 i3 hnd.2 (fun g hg => by
        obtain ⟨g1, g2, g3⟩ := hf g (by simp [hg])
        refine ⟨g1, g2, ?_⟩
        simp only
        rw [hoth g.1 g1 (fun e => hnd.1 (by rw [← e]; exact List.mem_map.2 ⟨g, hg, rfl⟩))]
        exact g3)
      refine ⟨st2, D2, ?_, i2, fun p hp => l2.mono p (p1.mono p hp), fun p hp => ?_, fun p hne hp b hb => ?_, fun k x hk => ?_,
        fun hs ht => l2.back hs (hset.back hs (p1.back hs ht)), fun b hb hn => ?_, fun g hg => ?_, fun g hg p hp => ?_⟩
      · simp only [setFields, e1]
        rw [if_neg hw, e3]
        exact e2
      · rcases l2.new p hp with hp | hp
        · exact p1.new p hp
        · exact .inr hp
      · rw [l2.frame p hne (fun hd => p1.mono p (hp hd)) b hb]
        simp only
        rw [hset.other p b hb (fun e => by cases e; exact hne rfl), p1.frame p (fun hd => hp (l2.mono p hd)) b hb]
      · rcases l2.vis k x hk with hk | hk
        · rcases p1.vis k x hk with hk | ⟨t, h1, h2, h3, h4⟩
          · exact .inl hk
          · exact .inr ⟨t, h1, h2, h3, fun q hq => l2.mono q (h4 q hq)⟩
        · exact .inr hk
      · simp only [List.map_cons, List.mem_cons, not_or] at hn
        rw [l2.rest b hb hn.2]
        exact hoth b hb hn.1
      · rcases List.mem_cons.1 hg with rfl | hg
        · simp only
          rw [l2.rest a hfwd hnd.1, ← hfr a hfwd, hs1]
          exact hset.here
        · rw [l2.set g hg]
          simp only
          rw [hoth g.1 (hf g (by simp [hg])).fwd (fun e => hnd.1 (by rw [← e]; exact List.mem_map.2 ⟨g, hg, rfl⟩))]
      · rcases List.mem_cons.1 hg with rfl | hg
        · exact l2.mono p (r1 p hp)
        · exact l2.refs g hg p hp

/-! ## Entities -/

theorem expand_objects (hR : Ready env index m v rank) : ∀ k r, r ≤ k →
    ExpandsI index m (Reached index m v) rank (expandI env same (objectRepl index) k) r := by
  intro k
  induction k with
  | zero => intro r hr o _ hlt; omega
  | succ k ih =>
    intro r hr o ho hlt st D h hor
    have hE := ih (rank o) (by omega)
    obtain ⟨x0, hx0⟩ : ∃ x0, m[o]? = some x0 := ⟨_, List.getElem?_eq_getElem (hR.there o ho)⟩
    obtain ⟨x, hx, hsk⟩ := skel_at h.sk hx0
    have hc : clsAt m o = some x.cls := by rw [← clsAt_skel h.sk o]; simp [clsAt, hx]
    obtain ⟨h1, h2, h3⟩ := entries hR ho h hx
    obtain ⟨st', D', e, i, l⟩ := setFields_objects (same := same) hR hc hE (shown st.mem x) st D h h1 h2
    have hres : ∀ a, a ∉ backNames → attrAt st'.mem o a = (attrAt m o a).map (resolve index) := by
      intro a ha
      have hlen := i.btw o a ha
      cases hu : attrAt m o a with
      | none => rw [hu] at hlen; simpa using hlen
      | some u =>
        obtain ⟨w, hw, _⟩ := h3 a u ha hu
        have hs := l.set _ hw
        simp only at hs
        rcases h.btw o a ha with e' | e'
        · rw [hs, e', hu]
        · rw [hs, e', hu]; simp [resolve_resolve]
    refine ⟨st', fun p => D' p ∨ p = o, ?_, ⟨i.sk, i.btw, ?_, ?_, ?_, ?_, ?_⟩, ⟨fun p hp => .inl (l.mono p hp), ?_, ?_, ?_, l.back⟩, .inr rfl⟩
    · simp only [expandI, hx]
      exact e
    · rintro p (hp | rfl)
      · exact i.done p hp
      · exact hres
    · intro p hp
      exact i.orig p (fun hd => hp (.inl hd))
    · intro k w hk
      obtain ⟨t, h1, h2, h3, h4⟩ := i.vis k w hk
      exact ⟨t, h1, h2, h3, fun q hq => (h4 q hq).imp_left .inl⟩
    · rintro p (hp | rfl)
      · exact i.inS p hp
      · exact ho
    · rintro p q (hp | rfl) hl
      · exact .inl (i.closed p q hp hl)
      · obtain ⟨a, u, ha, hu, hq⟩ := hl
        obtain ⟨w, hw, hw'⟩ := h3 a u ha hu
        rcases hw' with hw' | hw'
        · exact .inl (l.refs _ hw q (by simp only; rw [hw']; exact hq))
        · exact absurd hq (hw' q)
    · rintro p (hp | rfl)
      · exact (l.new p hp).imp_right (fun h => by omega)
      · exact .inr (by omega)
    · intro p hp a ha
      by_cases e' : p = o
      · subst e'
        have hd := hp (.inr rfl)
        rw [hres a ha, h.done p hd a ha]
      · exact l.frame p e' (fun hd => hp (.inl hd)) a ha
    · intro k w hk
      rcases l.vis k w hk with hk | ⟨t, h1, h2, h3, h4⟩
      · exact .inl hk
      · exact .inr ⟨t, h1, h2, h3, fun q hq => .inl (h4 q hq)⟩

/-! ## Everything is still well-typed -/

theorem typed_of_fits {env : Env} {m : Mem} (h : ∀ (o : Nat) (x : EObj), m[o]? = some x →
    x.fields.map Prod.fst = (eargs x.cls).map EArg.attr ++ (ownFields x.cls).map Prod.fst ∧ clash env.lower (x.uids.map Prod.fst) = false ∧
      ∀ a v, a ∉ backNames → attrAt m o a = some v → Fits env m x.cls a v) : WellTyped env m := by
  intro o x hx
  obtain ⟨hn, hu, hf⟩ := h o x hx
  have hnd : (x.fields.map Prod.fst).Nodup := by rw [hn]; exact names_nodup _
  have hlen : x.fields.length = (eargs x.cls).length + (ownFields x.cls).length := by simpa using congrArg List.length hn
  have hattr : ∀ f ∈ x.fields, attrAt m o f.1 = some f.2 := fun f hf => by simp only [attrAt, hx]; exact Dict.get?_of_mem hnd hf
  have htake : (x.fields.take (eargs x.cls).length).map Prod.fst = (eargs x.cls).map EArg.attr := by
    rw [List.map_take, hn, List.take_left' (by simp)]
  have hdrop : (x.fields.drop (eargs x.cls).length).map Prod.fst = (ownFields x.cls).map Prod.fst := by
    rw [List.map_drop, hn, List.drop_left' (by simp)]
  have hzip : ((eargs x.cls).map EArg.attr).zip ((x.fields.take (eargs x.cls).length).map Prod.snd) = x.fields.take (eargs x.cls).length := by
    rw [← htake, ← List.unzip_fst, ← List.unzip_snd, List.zip_unzip]
  have hmem : ∀ p ∈ (eargs x.cls).zip ((x.fields.take (eargs x.cls).length).map Prod.snd), (p.1.attr, p.2) ∈ x.fields := by
    intro p hp
    refine List.mem_of_mem_take (i := (eargs x.cls).length) ?_
    rw [← hzip, List.zip_map_left]
    exact List.mem_map.2 ⟨p, hp, rfl⟩
  refine ⟨(x.fields.take (eargs x.cls).length).map Prod.snd, x.fields.drop (eargs x.cls).length, ⟨?_, ?_, hdrop, ?_, ?_, hu⟩, ?_⟩
  · simp; omega
  · rw [hzip, List.take_append_drop]
  · intro p hp
    have h1 := hf p.1.attr p.2 (back_attr _ _ (List.of_mem_zip hp).1) (hattr _ (hmem p hp))
    have := h1.conv
    rw [kindOf_arg (List.of_mem_zip hp).1] at this
    exact this
  · intro w hw
    obtain ⟨f, hf1, rfl⟩ := List.mem_map.1 hw
    have hf2 := List.mem_of_mem_take hf1
    have : f.1 ∈ (eargs x.cls).map EArg.attr := by rw [← htake]; exact List.mem_map.2 ⟨f, hf1, rfl⟩
    obtain ⟨b, hb, e⟩ := List.mem_map.1 this
    exact (hf f.1 f.2 (by rw [← e]; exact back_attr _ _ hb) (hattr f hf2)).ok
  · intro hi
    have hd : (x.fields.drop (eargs x.cls).length).map Prod.fst = ["_name", "_labels"] := by rw [hdrop, hi]; rfl
    have hsub : ∀ f ∈ x.fields.drop (eargs x.cls).length, f ∈ x.fields := fun f hf => List.mem_of_mem_drop hf
    generalize x.fields.drop (eargs x.cls).length = own at hd hsub
    match own, hd with
    | [(n1, v1), (n2, v2)], hd =>
      simp only [List.map_cons, List.map_nil, List.cons.injEq, and_true] at hd
      obtain ⟨rfl, rfl⟩ := hd
      refine ⟨v1, v2, rfl, ?_, ?_⟩
      · exact (hf "_name" v1 (by decide) (hattr ("_name", v1) (hsub _ (by simp)))).name hi rfl
      · exact (hf "_labels" v2 (by decide) (hattr ("_labels", v2) (hsub _ (by simp)))).labels hi rfl

theorem grows_between {m0 mem : Mem} (hsk : mem.map skel = m0.map skel) (hb : ∀ o b, attrAt m0 o "_bounds" = some b → attrAt mem o "_bounds" = some b) :
    Grows m0 mem := by
  intro o x hx
  obtain ⟨z, hz, hsk'⟩ := skel_at hsk hx
  refine ⟨z, hz, congrArg Prod.fst hsk', fun b hb' => ?_⟩
  have := hb o b (by simp only [attrAt, hx]; exact hb')
  simpa only [attrAt, hz] using this

theorem range_kind (c : ECls) (a : String) : rangeOk (kindOf c a) := by
  unfold kindOf
  split
  · rename_i b hb
    exact (eargs_kinds c b (List.mem_of_find?_eq_some hb)).1
  · trivial

theorem Fits.grows {m m' : Mem} (hg : Grows m m') {c : ECls} {a : String} {v : V} (h : Fits env m c a v) : Fits env m' c a v :=
  ⟨conv_grows hg (range_kind c a) h.conv, okV_grows hg v h.ok, h.name, h.labels⟩

theorem typed_inv (hW : WellTyped env m) (hW' : WellTyped env (resolveMem index m)) {S : Nat → Prop} {r : Nat} {D : Nat → Prop} {st : SubSt}
    (h : Inv index m S rank r D st) : WellTyped env st.mem := by
  refine typed_of_fits (fun o x hx => ?_)
  obtain ⟨x0, hx0, hsk⟩ := skel_at h.sk.symm hx
  have e1 : x0.cls = x.cls := congrArg Prod.fst hsk
  have e2 : x0.fields.map Prod.fst = x.fields.map Prod.fst := congrArg (fun s => s.2.2) hsk
  have e3 : x0.uids = x.uids := congrArg (fun s => s.2.1) hsk
  refine ⟨by rw [← e1, ← e2]; exact typed_names hW hx0, ?_, fun a u ha hu => ?_⟩
  · obtain ⟨_, _, hs, _⟩ := hW o x0 hx0
    rw [← e3]
    exact hs.uids
  · have hc : clsAt m o = some x.cls := by simp [clsAt, hx0, e1]
    obtain ⟨u0, h0, h1⟩ := back_or h ha hu
    rcases h1 with rfl | rfl
    · refine (fits_of_typed hW hc h0 ha).grows (grows_between h.sk (fun q b hb => ?_))
      rcases h.btw q "_bounds" (by decide) with e | e
      · rw [e, hb]
      · rw [e, hb, Option.map_some, resolve, bounds_fixed hW hb]
    · refine (fits_of_typed hW' (o := o) (by rw [resolveMem_cls]; exact hc) ?_ ha).grows (grows_inv hW h)
      rw [resolveMem_attr index m o ha, h0]
      rfl

theorem objects_ready (hR : Ready env index m v rank) {k : Nat} (hk : ∀ o, Reached index m v o → rank o < k) :
    ∃ m', objectsInplace env same index k m v = .ok (resolve index v, m') ∧ m'.map skel = m.map skel ∧ WellTyped env m' ∧
      (∀ o a, a ∉ backNames → (Reached index m v o → attrAt m' o a = (attrAt m o a).map (resolve index)) ∧ (¬ Reached index m v o → attrAt m' o a = attrAt m o a)) ∧
      (Single index m → TwoWay m → TwoWay m') := by
  have h0 : Inv index m (Reached index m v) rank k (fun _ => False) { visited := [], mem := m } :=
    ⟨rfl, fun _ _ _ => .inl rfl, fun _ h => absurd h id, fun _ _ _ _ _ => rfl, fun _ _ h => by simp [Dict.get?] at h, fun _ h => absurd h id, fun _ _ h => absurd h id⟩
  obtain ⟨st, D, e, i, p, r⟩ := subI_objects hR.typed (expand_objects (same := same) hR k k (Nat.le_refl k)) v ⟨hR.plain, hR.ok, fun o ho => ⟨.here ho, hk o (.here ho)⟩⟩ _ _ h0
  have hD : ∀ o, Reached index m v o → D o := by
    intro o ho
    induction ho with
    | here h => exact r _ h
    | next _ hl ih => exact i.closed _ _ ih hl
  refine ⟨st.mem, ?_, i.sk, typed_inv hR.typed hR.typed' i, fun o a ha => ⟨fun ho => i.done o (hD o ho) a ha, fun ho => ?_⟩, p.back⟩
  · simp only [objectsInplace, substituteI, e]
  · exact p.frame o (fun hd => absurd (i.inS o hd) ho) a ha

end

/-! ## The theorem -/

/-- from `o` one gets to `p` -/
inductive LeadsTo (index : Dict (String × String) Nat) (m : Mem) : Nat → Nat → Prop where
  | one {o p : Nat} : Leads index m o p → LeadsTo index m o p
  | more {o q p : Nat} : Leads index m o q → LeadsTo index m q p → LeadsTo index m o p

/-- What is asked for substituting in place: attributes hold what their setters take, as they are and with the links in them resolved; there are no tuples,
and dictionaries have strings as keys; entities exist; and no entity leads to itself. -/
structure Substitutable (env : Env) (index : Dict (String × String) Nat) (m : Mem) (v : V) : Prop where
  typed : WellTyped env m
  typed' : WellTyped env (resolveMem index m)
  plain : Plain v
  ok : okV env (resolveMem index m) (resolve index v)
  there : ∀ o, Reached index m v o → o < m.length
  plains : ∀ o a u, Reached index m v o → a ∉ backNames → attrAt m o a = some u → Plain u
  acyclic : ∀ o, Reached index m v o → ¬ LeadsTo index m o o

open Classical in
/-- how many entities one gets to -/
noncomputable def below (index : Dict (String × String) Nat) (m : Mem) (o : Nat) : Nat := ((List.range m.length).filter (fun p => decide (LeadsTo index m o p))).length

open Classical in
theorem below_le (index : Dict (String × String) Nat) (m : Mem) (o : Nat) : below index m o ≤ m.length := by
  have := List.length_filter_le (fun p => decide (LeadsTo index m o p)) (List.range m.length)
  simpa [below] using this

theorem filter_lt {p : Nat} : ∀ (l : List Nat) (P Q : Nat → Bool), (∀ a, P a = true → Q a = true) → p ∈ l → P p = false → Q p = true →
    (l.filter P).length < (l.filter Q).length := by
  intro l P Q hPQ
  have le : ∀ l : List Nat, (l.filter P).length ≤ (l.filter Q).length := by
    intro l
    induction l with
    | nil => simp
    | cons a l ih =>
      simp only [List.filter_cons]
      by_cases hP : P a = true
      · rw [if_pos hP, if_pos (hPQ a hP)]; simp; exact ih
      · rw [if_neg hP]; split
        · simp; omega
        · exact ih
  induction l with
  | nil => simp
  | cons a l ih =>
    intro hm h1 h2
    simp only [List.filter_cons]
    rcases List.mem_cons.1 hm with rfl | hm
    · rw [if_neg (by simp [h1]), if_pos h2]
      have := le l
      simp; omega
    · have := ih hm h1 h2
      by_cases hP : P a = true
      · rw [if_pos hP, if_pos (hPQ a hP)]; simp; exact this
      · rw [if_neg hP]; split
        · simp; omega
        · exact this

open Classical in
theorem below_lt {index : Dict (String × String) Nat} {m : Mem} {o p : Nat} (h : Leads index m o p) (hp : p < m.length) (hc : ¬ LeadsTo index m p p) :
    below index m p < below index m o := by
  unfold below
  refine filter_lt (p := p) _ _ _ (fun a ha => ?_) (List.mem_range.2 hp) (decide_eq_false hc) (decide_eq_true (.one h))
  exact decide_eq_true (.more h (of_decide_eq_true ha))

/-- C60: `substitute_objects(v, index, inplace=True)` returns `v` with every link in it that the index knows replaced by the entity it means. The same has been done
with all attributes of all entities that one gets to in this way, no other entity has got other attributes, and no entity has another class, other ids or other
attributes than before. The attributes that are filled in from the other side of a two-way link are as they should be, if they were so before and no two materials
come out of the same process when links are resolved. -/
theorem C60_objects_inplace_partial (env : Env) (same : Mem → Nat → Nat → Bool) (index : Dict (String × String) Nat) (m : Mem) (v : V)
    (h : Substitutable env index m v) (k : Nat) (hk : m.length < k) :
    ∃ m', objectsInplace env same index k m v = .ok (resolve index v, m') ∧ m'.map skel = m.map skel ∧ WellTyped env m' ∧
      (∀ o a, a ∉ backNames → (Reached index m v o → attrAt m' o a = (attrAt m o a).map (resolve index)) ∧ (¬ Reached index m v o → attrAt m' o a = attrAt m o a)) ∧
      (Single index m → TwoWay m → TwoWay m') :=
  objects_ready (rank := below index m)
    ⟨h.typed, h.typed', h.plain, h.ok, h.there, h.plains, fun o p ho hl => below_lt hl (h.there p (.next ho hl)) (h.acyclic p (.next ho hl))⟩
    (fun o _ => Nat.lt_of_le_of_lt (below_le index m o) hk)

/-- C60: doing it again changes nothing any more. -/
theorem C60_idempotent_partial (env : Env) (same : Mem → Nat → Nat → Bool) (index : Dict (String × String) Nat) (m m' : Mem) (v w : V)
    (h : Substitutable env index m v) (k : Nat) (hk : m.length < k) (e : objectsInplace env same index k m v = .ok (w, m')) :
    ∃ m'', objectsInplace env same index k m' w = .ok (w, m'') ∧ m''.map skel = m'.map skel ∧ ∀ o a, a ∉ backNames → attrAt m'' o a = attrAt m' o a := by
  obtain ⟨m1, e1, hsk, ht, hat, _⟩ := C60_objects_inplace_partial env same index m v h k hk
  rw [e] at e1
  cases e1
  have hres : ∀ o a u', a ∉ backNames → attrAt m' o a = some u' → ∃ u, attrAt m o a = some u ∧ resolve index u' = resolve index u ∧ (u' = u ∨ u' = resolve index u) := by
    intro o a u' ha hu
    by_cases hr : Reached index m v o
    · rw [(hat o a ha).1 hr] at hu
      cases h0 : attrAt m o a with
      | none => rw [h0] at hu; cases hu
      | some u =>
        rw [h0] at hu
        simp only [Option.map_some, Option.some.injEq] at hu
        exact ⟨u, rfl, by rw [← hu, resolve_resolve], .inr hu.symm⟩
    · rw [(hat o a ha).2 hr] at hu
      exact ⟨u', hu, rfl, .inl rfl⟩
  have hleads : ∀ o p, Leads index m' o p → Leads index m o p := by
    rintro o p ⟨a, u', ha, hu, hp⟩
    obtain ⟨u, h0, h1, _⟩ := hres o a u' ha hu
    exact ⟨a, u, ha, h0, by rw [← h1]; exact hp⟩
  have hreach : ∀ o, Reached index m' (resolve index v) o → Reached index m v o := by
    intro o ho
    induction ho with
    | here h => exact .here (by rwa [resolve_resolve] at h)
    | next _ hl ih => exact .next ih (hleads _ _ hl)
  have hto : ∀ o p, LeadsTo index m' o p → LeadsTo index m o p := by
    intro o p hl
    induction hl with
    | one hl => exact .one (hleads _ _ hl)
    | more hl _ ih => exact .more (hleads _ _ hl) ih
  have hM : ∀ o a, a ∉ backNames → attrAt (resolveMem index m') o a = attrAt (resolveMem index m) o a := by
    intro o a ha
    rw [resolveMem_attr _ _ _ ha, resolveMem_attr _ _ _ ha]
    by_cases hr : Reached index m v o
    · rw [(hat o a ha).1 hr, Option.map_map]
      congr 1
      funext u
      exact resolve_resolve index u
    · rw [(hat o a ha).2 hr]
  have hskM : (resolveMem index m').map skel = (resolveMem index m).map skel := by
    have : ∀ m : Mem, (resolveMem index m).map skel = m.map skel := by
      intro m
      unfold resolveMem
      rw [List.map_map]
      refine List.map_congr_left (fun x _ => ?_)
      simp only [Function.comp_apply, skel, List.map_map, Prod.mk.injEq, true_and]
      refine List.map_congr_left (fun f _ => ?_)
      simp only [Function.comp_apply]
      split <;> rfl
    rw [this, this, hsk]
  have hg : Grows (resolveMem index m) (resolveMem index m') := grows_between hskM (fun o b hb => by rw [hM o _ (by decide)]; exact hb)
  have htM : WellTyped env (resolveMem index m') := by
    refine typed_of_fits (fun o x hx => ?_)
    obtain ⟨x0, hx0, hsk⟩ := skel_at hskM.symm hx
    have e1 : x0.cls = x.cls := congrArg Prod.fst hsk
    have e2 : x0.fields.map Prod.fst = x.fields.map Prod.fst := congrArg (fun s => s.2.2) hsk
    have e3 : x0.uids = x.uids := congrArg (fun s => s.2.1) hsk
    refine ⟨by rw [← e1, ← e2]; exact typed_names h.typed' hx0, ?_, fun a u ha hu => ?_⟩
    · obtain ⟨_, _, hs, _⟩ := h.typed' o x0 hx0
      rw [← e3]
      exact hs.uids
    · exact (fits_of_typed h.typed' (o := o) (by simp [clsAt, hx0, e1]) (by rw [← hM o a ha]; exact hu) ha).grows hg
  have hlen : m'.length = m.length := skel_length hsk
  have h' : Substitutable env index m' (resolve index v) := by
    refine ⟨ht, htM, plain_put (resolve_pointers index) v h.plain, ?_, fun o ho => by rw [hlen]; exact h.there o (hreach o ho), fun o a u' ho ha hu => ?_,
      fun o ho hl => h.acyclic o (hreach o ho) (hto _ _ hl)⟩
    · rw [resolve_resolve]
      exact okV_grows hg _ h.ok
    · obtain ⟨u, h0, _, h1⟩ := hres o a u' ha hu
      have := h.plains o a u (hreach o ho) ha h0
      rcases h1 with rfl | rfl
      · exact this
      · exact plain_put (resolve_pointers index) _ this
  obtain ⟨m2, e2, hsk2, _, hat2, _⟩ := C60_objects_inplace_partial env same index m' (resolve index v) h' k (by omega)
  refine ⟨m2, by rw [e2, resolve_resolve], hsk2, fun o a ha => ?_⟩
  by_cases hr : Reached index m' (resolve index v) o
  · rw [(hat2 o a ha).1 hr, (hat o a ha).1 (hreach o hr), Option.map_map]
    congr 1
    funext u
    exact resolve_resolve index u
  · exact (hat2 o a ha).2 hr

end Verif.Inplace
