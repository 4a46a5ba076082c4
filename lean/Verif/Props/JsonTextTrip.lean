import Verif.Props.JsonTextMore
import Verif.Props.RoundTrip
import Verif.Props.ReadCopy
/-!
# What `gemd.json` writes is read again from its text

The models of `raw_loads`, `loads`, `build` and of everything that uses them start from the tree that `raw_dumps` or `dumps` has written. Here it is shown that
going through the text makes no difference.
-/

namespace Verif.JsonText
open Verif.Py Verif.Value Verif.Schema Verif.Json Verif.Substitute Verif.Traverse

/-! ## What is written is a tree -/

mutual
/-- the keys of dictionaries are distinct, and so are the names of fields, none of which is `type`; floats are read as what they are written as -/
def Keyed (F : Floats) : V → Prop
  | .list l => Keyeds F l
  | .tuple l => Keyeds F l
  | .dict ks vs => (∀ names : List String, ks = names.map V.str → names.Nodup) ∧ Keyeds F vs
  | .obj _ ns vs => ns.Nodup ∧ "type" ∉ ns ∧ Keyeds F vs
  | .float q => Faithful F q
  | _ => True
def Keyeds (F : Floats) : List V → Prop
  | [] => True
  | v :: vs => Keyed F v ∧ Keyeds F vs
end

theorem keyeds_iff {F : Floats} (l : List V) : Keyeds F l ↔ ∀ v ∈ l, Keyed F v := by
  induction l with
  | nil => simp [Keyeds]
  | cons v vs ih => simp [Keyeds, ih]

theorem trees_iff {F : Floats} (l : List V) : Trees F l ↔ ∀ v ∈ l, Tree F v := by
  induction l with
  | nil => simp [Trees]
  | cons v vs ih => simp [Trees, ih]

theorem tree_mkDict {F : Floats} {fs : List (String × V)} (hn : (fs.map Prod.fst).Nodup) (hv : ∀ f ∈ fs, Tree F f.2) : Tree F (mkDict fs) := by
  unfold mkDict
  rw [Tree]
  refine ⟨⟨fs.map Prod.fst, by simp, hn, by simp⟩, (trees_iff _).2 ?_⟩
  intro v h
  obtain ⟨f, hf, rfl⟩ := List.mem_map.1 h
  exact hv f hf

theorem tree_sorted {F : Floats} {fs : List (String × V)} (hn : (fs.map Prod.fst).Nodup) (hv : ∀ f ∈ fs, Tree F f.2) : Tree F (mkDict (sortFields fs)) := by
  have hp := sortFields_perm fs
  exact tree_mkDict ((hp.map Prod.fst).nodup_iff.2 hn) (fun f hf => hv f (hp.subset hf))

theorem nodup_zip {names : List String} (hn : names.Nodup) (vs : List V) : ((names.zip vs).map Prod.fst).Nodup := by
  induction names generalizing vs with
  | nil => simp
  | cons k names ih =>
    cases vs with
    | nil => simp
    | cons v vs =>
      rw [List.nodup_cons] at hn
      simp only [List.zip_cons_cons, List.map_cons, List.nodup_cons]
      refine ⟨?_, ih hn.2 vs⟩
      intro hm
      obtain ⟨f, hf, e⟩ := List.mem_map.1 hm
      exact hn.1 (e ▸ (List.of_mem_zip hf).1)

mutual
theorem enc_is_tree {F : Floats} (E : Nat → Except PyErr V) (v t : V) (h : enc E v = .ok t) (hk : Keyed F v)
    (hE : ∀ o u, V.ref o ∈ v.subs → E o = .ok u → Tree F u) : Tree F t := by
  match v with
  | .list l =>
    simp only [enc] at h
    split at h
    · cases h
    · rename_i l' hl
      cases h
      rw [Keyed] at hk
      rw [Tree]
      exact encs_are_trees E l l' hl hk (fun o u ho => hE o u (by simp [V.subs, ho]))
  | .tuple l =>
    simp only [enc] at h
    split at h
    · cases h
    · rename_i l' hl
      cases h
      rw [Keyed] at hk
      rw [Tree]
      exact encs_are_trees E l l' hl hk (fun o u ho => hE o u (by simp [V.subs, ho]))
  | .dict ks vs =>
    simp only [enc] at h
    split at h
    · cases h
    · rename_i names hs
      split at h
      · cases h
      · rename_i vs' hl
        cases h
        rw [Keyed] at hk
        have := encs_are_trees E vs vs' hl hk.2 (fun o u ho => hE o u (by simp [V.subs, ho]))
        refine tree_sorted (nodup_zip (hk.1 names (strings_eq hs)) _) ?_
        intro f hf
        exact (trees_iff _).1 this _ (List.of_mem_zip hf).2
  | .obj ty ns vs =>
    simp only [enc] at h
    split at h
    · cases h
    · rename_i vs' hl
      cases h
      rw [Keyed] at hk
      have := encs_are_trees E vs vs' hl hk.2.2 (fun o u ho => hE o u (by simp [V.subs, ho]))
      refine tree_sorted ?_ ?_
      · rw [List.map_cons, List.nodup_cons]
        refine ⟨?_, nodup_zip hk.1 _⟩
        intro hm
        obtain ⟨f, hf, e⟩ := List.mem_map.1 hm
        have hf1 := (List.of_mem_zip hf).1
        rw [show f.1 = "type" from e] at hf1
        exact hk.2.1 hf1
      · intro f hf
        rcases List.mem_cons.1 hf with rfl | hf
        · simp [Tree]
        · exact (trees_iff _).1 this _ (List.of_mem_zip hf).2
  | .link s i =>
    simp only [enc] at h
    cases h
    refine tree_mkDict (by simp) ?_
    intro f hf
    simp only [List.mem_cons, List.not_mem_nil, or_false] at hf
    rcases hf with rfl | rfl | rfl <;> simp [Tree]
  | .ref o =>
    simp only [enc] at h
    exact hE o t (by simp [V.subs]) h
  | .none => simp only [enc] at h; cases h; simp [Tree]
  | .bool b => simp only [enc] at h; cases h; simp [Tree]
  | .int i => simp only [enc] at h; cases h; simp [Tree]
  | .float q => simp only [enc] at h; cases h; rw [Tree]; rw [Keyed] at hk; exact hk
  | .str s => simp only [enc] at h; cases h; simp [Tree]
theorem encs_are_trees {F : Floats} (E : Nat → Except PyErr V) (vs ts : List V) (h : encs E vs = .ok ts) (hk : Keyeds F vs)
    (hE : ∀ o u, V.ref o ∈ subss vs → E o = .ok u → Tree F u) : Trees F ts := by
  match vs with
  | [] => simp only [encs] at h; cases h; simp [Trees]
  | v :: vs =>
    simp only [encs] at h
    split at h
    · cases h
    · rename_i w hw
      split at h
      · cases h
      · rename_i ws hws
        cases h
        rw [Keyeds] at hk
        rw [Trees]
        exact ⟨enc_is_tree E v w hw hk.1 (fun o u ho => hE o u (by simp [subss, ho])), encs_are_trees E vs ws hws hk.2 (fun o u ho => hE o u (by simp [subss, ho]))⟩
end

/-- the record of an entity, if the entities in it are trees -/
theorem encRef_is_tree {F : Floats} {m : Mem} (hm : ∀ (o : Nat) (x : EObj), m[o]? = some x → ((asDict m x).map Prod.fst).Nodup ∧ ∀ e ∈ asDict m x, Keyed F e.2) (k o : Nat) (t : V)
    (h : encRef m k o = .ok t) : Tree F t := by
  induction k generalizing o t with
  | zero => simp [encRef] at h
  | succ k ih =>
    rw [encRef] at h
    split at h
    · cases h
    · rename_i x hx
      obtain ⟨h1, h2⟩ := hm o x hx
      split at h
      · cases h
      · rename_i vs hvs
        cases h
        have := encs_are_trees (encRef m k) _ vs hvs ((keyeds_iff _).2 (by
          intro v hv
          obtain ⟨e, he, rfl⟩ := List.mem_map.1 hv
          exact h2 e he)) (fun o u _ hu => ih o u hu)
        refine tree_sorted (nodup_zip h1 _) ?_
        intro f hf
        exact (trees_iff _).1 this _ (List.of_mem_zip hf).2

/-- C75: `raw_dumps` writes a tree (the keys of dictionaries and the names of fields being distinct), so that `raw_loads` of its text is what `raw_loads` of the tree is;
`build(d)`, which is `raw_loads(raw_dumps(d))`, is the same with the text in between. -/
theorem C75_raw {F : Floats} {st : Style} (hst : st.Fine) (env : Env) {m : Mem} (v : V)
    (hm : ∀ (o : Nat) (x : EObj), m[o]? = some x → ((asDict m x).map Prod.fst).Nodup ∧ ∀ e ∈ asDict m x, Keyed F e.2) (hv : Keyed F v) :
    (∀ t, rawDumps m v = .ok t → Tree F t ∧ ∀ M0, rawLoadsText F env M0 (text F st 0 t) = rawLoads env M0 t) ∧
    build env m v = match rawDumps m v with
      | .error e => .error e
      | .ok t => rawLoadsText F env m (text F st 0 t) := by
  have key : ∀ t, rawDumps m v = .ok t → Tree F t := fun t h => enc_is_tree _ v t h hv (fun o u _ hu => encRef_is_tree hm _ o u hu)
  refine ⟨fun t h => ⟨key t h, fun M0 => (C75_loads hst t (key t h) env M0).1⟩, ?_⟩
  unfold build
  cases h : rawDumps m v with
  | error e => rfl
  | ok t => exact (C75_loads hst t (key t h) env m).1.symm

/-! ## The round trip, with the text -/

mutual
/-- the numbers in a value are, as floats, read as what they are written as (the setters turn numbers into floats) -/
def Fit (F : Floats) : V → Prop
  | .bool b => Faithful F (if b then 1 else 0)
  | .int i => Faithful F i
  | .float q => Faithful F q
  | .list l => Fits F l
  | .tuple l => Fits F l
  | .dict _ vs => Fits F vs
  | .obj _ _ vs => Fits F vs
  | _ => True
def Fits (F : Floats) : List V → Prop
  | [] => True
  | v :: vs => Fit F v ∧ Fits F vs
end

theorem fits_iff {F : Floats} (l : List V) : Fits F l ↔ ∀ v ∈ l, Fit F v := by
  induction l with
  | nil => simp [Fits]
  | cons v vs ih => simp [Fits, ih]

mutual
theorem fit_cn {F : Floats} (v : V) : Fit F (cn v) ↔ Fit F v := by
  cases v with
  | list l => simp only [cn, Fit]; exact fits_cn l
  | tuple l => simp only [cn, Fit]; exact fits_cn l
  | dict ks vs => simp only [cn, Fit]; exact fits_cn vs
  | obj t ns vs => simp only [cn, Fit]; exact fits_cn vs
  | _ => simp [cn, Fit]
theorem fits_cn {F : Floats} (vs : List V) : Fits F (cns vs) ↔ Fits F vs := by
  cases vs with
  | nil => simp [cns]
  | cons v vs => simp only [cns, Fits, fit_cn v, fits_cn vs]
end

theorem fit_sorted {F : Floats} {names : List String} {vs : List V} (h : Fits F vs) : Fit F (mkDict (sortFields (names.zip vs))) := by
  unfold mkDict
  rw [Fit, fits_iff]
  intro v hv
  obtain ⟨f, hf, rfl⟩ := List.mem_map.1 hv
  exact (fits_iff _).1 h _ (List.of_mem_zip ((sortFields_perm _).subset hf)).2

theorem fit_unsorted {F : Floats} {names : List String} {vs : List V} (hl : names.length = vs.length) (h : Fit F (mkDict (sortFields (names.zip vs)))) : Fits F vs := by
  unfold mkDict at h
  rw [Fit, fits_iff] at h
  rw [fits_iff]
  intro v hv
  apply h
  have : v ∈ (names.zip vs).map Prod.snd := by rw [List.map_snd_zip (by omega)]; exact hv
  obtain ⟨f, hf, rfl⟩ := List.mem_map.1 this
  exact List.mem_map.2 ⟨f, (sortFields_perm _).symm.subset hf, rfl⟩

section
variable {F : Floats} {f : Nat → V} {g : String → String → V}

mutual
theorem fit_tr (hf : ∀ o, Fit F (f o)) (hg : ∀ s i, Fit F (g s i)) (v : V) (h : Fit F v) : Fit F (tr f g v) := by
  cases v with
  | list l => rw [Fit] at h; rw [tr, Fit]; exact fits_tr hf hg l h
  | tuple l => rw [Fit] at h; rw [tr, Fit]; exact fits_tr hf hg l h
  | dict ks vs =>
    rw [Fit] at h
    have := fits_tr hf hg vs h
    rw [tr, sortDict]
    split
    · exact fit_sorted this
    · rw [Fit]; exact this
  | obj t ns vs => rw [Fit] at h; rw [tr, Fit]; exact fits_tr hf hg vs h
  | link s i => exact hg s i
  | ref o => exact hf o
  | _ => exact h
theorem fits_tr (hf : ∀ o, Fit F (f o)) (hg : ∀ s i, Fit F (g s i)) (vs : List V) (h : Fits F vs) : Fits F (trs f g vs) := by
  cases vs with
  | nil => simp [trs, Fits]
  | cons v vs => rw [Fits] at h; rw [trs, Fits]; exact ⟨fit_tr hf hg v h.1, fits_tr hf hg vs h.2⟩
end

mutual
theorem fit_nf (v : V) (hw : wf v) (h : Fit F (nf v)) : Fit F v := by
  cases v with
  | list l => rw [nf_list, Fit] at h; rw [wf] at hw; rw [Fit]; exact fits_nf l hw h
  | tuple l => rw [nf_tuple, Fit] at h; rw [wf] at hw; rw [Fit]; exact fits_nf l hw h
  | dict ks vs =>
    rw [wf] at hw
    obtain ⟨hl, names, hs, _⟩ := hw.1
    rw [nf_dict hs] at h
    rw [Fit]
    have hn : names.length = ks.length := by rw [strings_eq hs]; simp
    exact fits_nf vs hw.2 (fit_unsorted (by simp; omega) h)
  | obj t ns vs => rw [nf_obj, Fit] at h; rw [wf] at hw; rw [Fit]; exact fits_nf vs hw.2 h
  | bool b => simpa [nf, cn, tr, Fit] using h
  | int i => simpa [nf, cn, tr, Fit] using h
  | float q => simpa [nf, cn, tr, Fit] using h
  | _ => simp [Fit]
theorem fits_nf (vs : List V) (hw : wfs vs) (h : Fits F (vs.map nf)) : Fits F vs := by
  cases vs with
  | nil => simp [Fits]
  | cons v vs =>
    rw [List.map_cons, Fits] at h
    rw [wfs] at hw
    rw [Fits]
    exact ⟨fit_nf v hw.1 h.1, fits_nf vs hw.2 h.2⟩
end

/-- what was made of a value by replacing entities has no other numbers -/
theorem fit_same (hf : ∀ o, Fit F (f o)) {v w : V} (hw : wf w) (e : nf w = nf (tr f .link v)) (h : Fit F v) : Fit F w := by
  apply fit_nf w hw
  rw [e]
  exact fit_tr (fun _ => by simp [Fit]) (fun _ _ => by simp [Fit]) _ ((fit_cn _).2 (fit_tr hf (fun _ _ => by simp [Fit]) v h))
end

theorem fit_linkOf {F : Floats} {lower : String → String} {scope : Option String} {fallback : Bool} {m : Mem} (o : Nat) : Fit F (linkOf lower scope fallback m o) := by
  unfold linkOf
  split
  · split
    · rename_i l hl
      unfold toLink at hl
      split at hl
      · cases hl
      · split at hl
        · cases hl; simp [Fit]
        · cases hl
    · simp [Fit]
  · simp [Fit]

mutual
theorem keyed_of {F : Floats} {env : Env} {m : Mem} (v : V) (hw : wf v) (ho : okV env m v) (hf : Fit F v) : Keyed F v := by
  match v with
  | .list l => rw [wf] at hw; rw [okV] at ho; rw [Fit] at hf; rw [Keyed]; exact keyeds_of l hw ho hf
  | .tuple l => rw [wf] at hw; rw [okV] at ho; rw [Fit] at hf; rw [Keyed]; exact keyeds_of l hw ho hf
  | .dict ks vs =>
    rw [wf] at hw
    rw [okV] at ho
    rw [Fit] at hf
    rw [Keyed]
    refine ⟨?_, keyeds_of vs hw.2 ho hf⟩
    rintro names rfl
    obtain ⟨_, names', h1, h2, _⟩ := hw.1
    rw [strings_names] at h1
    cases h1
    exact h2
  | .obj t ns vs =>
    rw [wf] at hw
    rw [okV] at ho
    rw [Fit] at hf
    rw [Keyed]
    obtain ⟨c, hc, rfl, _⟩ := ho.1
    obtain ⟨h1, h2, _⟩ := table_names t c hc
    exact ⟨h1, h2, keyeds_of vs hw.2 ho.2 hf⟩
  | .none => simp [Keyed]
  | .bool _ => simp [Keyed]
  | .int _ => simp [Keyed]
  | .float _ => rw [Fit] at hf; rw [Keyed]; exact hf
  | .str _ => simp [Keyed]
  | .link _ _ => simp [Keyed]
  | .ref _ => simp [Keyed]
theorem keyeds_of {F : Floats} {env : Env} {m : Mem} (vs : List V) (hw : wfs vs) (ho : okVs env m vs) (hf : Fits F vs) : Keyeds F vs := by
  match vs with
  | [] => simp [Keyeds]
  | v :: vs =>
    rw [wfs] at hw
    rw [okVs] at ho
    rw [Fits] at hf
    rw [Keyeds]
    exact ⟨keyed_of v hw.1 ho.1 hf.1, keyeds_of vs hw.2 ho.2 hf.2⟩
end

/-- the tree of a value without entities -/
theorem tree_clean {F : Floats} {env : Env} {m : Mem} {v : V} (h : Clean env m v) (hf : Fit F v) (T : Nat → V) : Tree F (tree T v) := by
  have := enc_tree (fun _ => .error .other) T v h.wf h.noRef
  exact enc_is_tree _ v _ this (keyed_of v h.wf h.ok hf) (fun o u _ hu => by cases hu)

theorem fit_str {F : Floats} {v : V} (h : isStr v = true) : Fit F v := by
  cases v <;> simp_all [isStr, Fit]

/-- the record of a copy -/
theorem tree_record {F : Floats} {env : Env} {M : Mem} {f : Nat → V} (hf : ∀ o, Fit F (f o)) {o : Nat} {x y : EObj} (hM : WellTyped env M) (hx : M[o]? = some x)
    (hv : ∀ e ∈ asDict M x, wf e.2 ∧ noTuple e.2) (hfit : ∀ e ∈ x.fields, Fit F e.2) (hc : Copy env M f x y) : Tree F (recordTree M y) := by
  obtain ⟨h1, h2, h3⟩ := hc.attrs (Grows.refl M) hv
  have hd : ∀ e ∈ asDict M x, Fit F e.2 := by
    obtain ⟨vals, own, ws, name, labels, hs, _, _, _, _, _, hn, hl, hp⟩ := hc
    rw [asDict_eq hs M, hp]
    intro e he
    rcases List.mem_cons.1 he with rfl | he
    · simp [Fit]
    rcases List.mem_cons.1 he with rfl | he
    · simp only [uidsDict]
      rw [Fit, fits_iff]
      intro v hv
      obtain ⟨_, _, rfl⟩ := List.mem_map.1 hv
      simp [Fit]
    rcases List.mem_append.1 he with he | he
    · have hm : e.2 ∈ (((eargs x.cls).map EArg.attr).zip vals).map Prod.snd := by
        rw [List.map_snd_zip (by simp [hs.len])]
        exact (List.of_mem_zip he).2
      obtain ⟨a, ha, e2⟩ := List.mem_map.1 hm
      rw [← e2]
      exact hfit a (by rw [hs.fields]; exact List.mem_append_left _ ha)
    · split at he
      · simp only [List.mem_cons, List.not_mem_nil, or_false] at he
        rcases he with rfl | rfl
        · rcases hn with e | e
          · simp only [e]; simp [Fit]
          · exact fit_str e
        · rcases hl with e | ⟨l, e, h⟩
          · simp only [e]; simp [Fit]
          · simp only [e]
            rw [Fit, fits_iff]
            exact fun w hw => fit_str (h w hw)
      · simp at he
  have hfy : ∀ e ∈ asDict M y, Fit F e.2 := by
    intro e he
    obtain ⟨k, hk, rfl⟩ := List.getElem_of_mem he
    have hlen : (asDict M y).length = (asDict M x).length := by simpa using congrArg List.length h1
    have := congrArg (fun l => l[k]?) h2
    simp only [List.getElem?_map, List.getElem?_eq_getElem hk, List.getElem?_eq_getElem (hlen ▸ hk), Option.map_some, Option.some.injEq] at this
    exact fit_same hf (h3 _ (List.mem_map.2 ⟨_, List.getElem_mem hk, rfl⟩)).wf this (hd _ (List.getElem_mem _))
  obtain ⟨fs, e, n1, n2, _⟩ := asDict_names hM hx
  rw [e] at h1
  unfold recordTree
  cases hy : asDict M y with
  | nil => rw [hy] at h1; simp at h1
  | cons p ps =>
    rw [hy] at h1
    simp only [List.map_cons, List.cons.injEq] at h1
    refine tree_sorted ?_ ?_
    · simp only [List.tail_cons, List.map_cons, List.nodup_cons, onSnd, List.map_map]
      have : (Prod.fst ∘ fun f : String × V => (f.1, tree (fun _ => V.none) f.2)) = Prod.fst := rfl
      rw [this, h1.2]
      exact ⟨n2, n1⟩
    · intro q hq
      rcases List.mem_cons.1 hq with rfl | hq
      · simp [Tree]
      · obtain ⟨q', hq', rfl⟩ := List.mem_map.1 hq
        have hm : q' ∈ asDict M y := by rw [hy]; exact List.mem_cons_of_mem _ hq'
        exact tree_clean (h3 _ (List.mem_map.2 ⟨_, hm, rfl⟩)) (hfy _ hm) _

/-- what `dumps` writes is a tree -/
theorem written_tree {F : Floats} {env : Env} {m : Mem} {obj : V} (h : Writable env m obj) (hu : Identified m obj) (hobj : Fit F obj)
    (hfit : ∀ (o : Nat) (x : EObj), Reachable m false obj (.ref o) → m[o]? = some x → ∀ e ∈ x.fields, Fit F e.2) :
    ∃ (n : Nat) (l : List V) (M : Mem) (t : V), (∀ n' ≥ n, flattenSet env n' m (mkDict [("object", obj)]) = some (.ok (l, M))) ∧
      writeContext env M (mkDict [("object", obj)]) l = .ok (t, M) ∧ Tree F t := by
  obtain ⟨n, M, ps, ys, L, h1, ⟨l, rfl⟩, h3, h4, hS, hL, h5, h6⟩ := flat_source h hu
  have hrL : ∀ p, V.ref p ∈ obj.subs → p ∈ L := by
    intro p hp
    have hr := reach_subs m false obj h.wf _ hp
    exact (hL p).2 ⟨h.there p hr, hr⟩
  have hget : ∀ a, a < m.length → (m ++ l)[a]? = m[a]? := fun a ha => List.getElem?_append_left ha
  have hok : okV env (m ++ l) obj := okV_grows (Grows.append m l) obj h.ok
  have hIn : Input env (m ++ l) none true (mkDict [("object", obj)]) (linkOf env.lower none true m) obj := by
    refine ⟨h.wf, hok, h.noTuple, ?_⟩
    intro o ho
    obtain ⟨hlt, hr⟩ := (hL o).1 (hrL o ho)
    have hx := List.getElem?_eq_getElem hlt
    obtain ⟨s, i, e1, e2, _⟩ := linkOf_ok (lower := env.lower) (scope := none) (fallback := true) hx ⟨hu o _ hx hr, .inl rfl⟩
    refine ⟨by simp [mkDict], _, s, i, (hget o hlt).trans hx, e1, e2⟩
  obtain ⟨w, hw1, hw2⟩ := write_context h3 hIn (fun i i1 i2 => by
    refine ⟨h5 i i1 i2, ?_⟩
    obtain ⟨x, hx, hc⟩ := h6 i (by omega) i2
    exact ⟨x, hS.plain _ (List.getElem_mem _) x hx, hc⟩)
  refine ⟨n, _, m ++ l, _, h1, hw1, tree_mkDict (by simp) ?_⟩
  intro e he
  simp only [List.mem_cons, List.not_mem_nil, or_false] at he
  rcases he with rfl | rfl
  · simp only
    rw [Tree, trees_iff]
    intro v hv
    obtain ⟨y, hy, rfl⟩ := List.mem_map.1 hv
    obtain ⟨k, hk, rfl⟩ := List.getElem_of_mem hy
    obtain ⟨x, hx, hc⟩ := h6 k (by omega) hk
    have hmem : L[k] ∈ L := List.getElem_mem _
    obtain ⟨hlt, hr⟩ := (hL _).1 hmem
    exact tree_record fit_linkOf hS.typed hx (hS.plain _ hmem x hx) (hfit _ x hr ((hget _ hlt).symm.trans hx)) hc
  · exact tree_clean hw2.clean (fit_same fit_linkOf hw2.clean.wf hw2.eq hobj) _

/-- C75, with C43: `loads` of the text that `dumps` makes of `obj` gives an isomorphic copy of `obj`, whatever the style of the text. As in `C43_round_trip_partial`, and the numbers that are
reached are read as what they are written as. -/
theorem C75_round_trip_partial {F : Floats} {st : Style} (hst : st.Fine) (env : Env) (m : Mem) (obj : V) (scope : String) (gen : Nat → String) (drawn : Nat) (h : Writable env m obj)
    (hsc : scope ≠ "type") (hf : Fresh env.lower m obj scope gen drawn) (hobj : Fit F obj)
    (hfit : ∀ (o : Nat) (x : EObj), Reachable m false obj (.ref o) → m[o]? = some x → ∀ e ∈ x.fields, Fit F e.2) :
    ∃ n m1 t M, (∀ n' ≥ n, dumps env scope gen n' m drawn obj = some (.ok (t, M))) ∧ Numbered scope m m1 obj ∧ Extends m1 M ∧
      ∀ M0 : Mem, ∃ w m' φ, loadsText F env M0 (text F st 0 t) = .ok (w, m') ∧ Iso m1 obj m' w φ ∧ ∀ o, Reachable m1 false obj (.ref o) → M0.length ≤ φ o := by
  obtain ⟨n, m1, c1, h1, h2, h3⟩ := writable_numbered scope gen drawn h hsc hf
  obtain ⟨n2, l, M, t, k1, ⟨ys, rfl⟩, _, k3, k4⟩ := round_trip h3 h2.all
  obtain ⟨n3, l', M', t', j1, j2, j3⟩ := written_tree (F := F) h3 h2.all hobj (by
    intro o x hr hx e he
    obtain ⟨x0, hx0, _, hfs⟩ := same_back h2.same hx
    exact hfit o x0 ((reachable_congr h2.same).1 hr) hx0 e (hfs ▸ he))
  have e1 := k1 (max n2 n3) (by omega)
  rw [j1 (max n2 n3) (by omega)] at e1
  simp only [Option.some.injEq, Except.ok.injEq, Prod.mk.injEq] at e1
  obtain ⟨rfl, rfl⟩ := e1
  rw [k3] at j2
  simp only [Except.ok.injEq, Prod.mk.injEq, and_true] at j2
  subst j2
  refine ⟨max n n2, m1, t, m1 ++ ys, ?_, h2, ⟨ys, rfl⟩, fun M0 => ?_⟩
  · intro n' hn'
    unfold dumps
    simp only [flatten, h1 n' (by omega), k1 n' (by omega), k3]
  · obtain ⟨w, m', φ, q1, q2, q3, _⟩ := k4 M0
    exact ⟨w, m', φ, ((C75_loads hst t j3 env M0).2).trans q1, q2, q3⟩

mutual
theorem fit_all {F : Floats} (hF : ∀ q, Faithful F q) (v : V) : Fit F v := by
  cases v with
  | list l => rw [Fit]; exact fits_all hF l
  | tuple l => rw [Fit]; exact fits_all hF l
  | dict ks vs => rw [Fit]; exact fits_all hF vs
  | obj t ns vs => rw [Fit]; exact fits_all hF vs
  | bool b => rw [Fit]; exact hF _
  | int i => rw [Fit]; exact hF _
  | float q => rw [Fit]; exact hF _
  | _ => simp [Fit]
theorem fits_all {F : Floats} (hF : ∀ q, Faithful F q) (vs : List V) : Fits F vs := by
  cases vs with
  | nil => simp [Fits]
  | cons v vs => rw [Fits]; exact ⟨fit_all hF v, fits_all hF vs⟩
end

/-- for a way of writing floats that loses nothing, what is asked of numbers holds for all values (and there is one) -/
example (v : V) : Fit someFloats v := fit_all someFloats_faithful v

end Verif.JsonText
