import Verif.Model.History
import Verif.Props.Resolve
import Verif.Props.RoundTrip
import Verif.Props.BackLinks
/-!
# The complete history of a material

C54: `complete_material_history` (entity/util.py:100-131). Model: `Verif.Model.History`.
-/

set_option linter.unusedSimpArgs false
set_option linter.unusedVariables false
set_option linter.unusedSectionVars false

namespace Verif.History
open Verif.Json Verif.Py Verif.Value Verif.Traverse Verif.Schema Verif.Substitute

/-! ## Parts of what can be written -/

theorem part_names {m : Mem} {root part : V} (hp : ∀ w, Reachable m false part w → Reachable m false root w) {n : String} {b : Nat} {v : V} (h : Names m root n b v) :
    Names m part n b v := by
  cases h with
  | none h1 h2 => exact .none h1 (fun a ha => h2 a (hp _ ha))
  | one a h1 h2 h3 => exact .one a h1 h2 (fun c hc => h3 c (hp _ hc))
  | many as h1 h2 h3 h4 => exact .many as h1 h2 h3 (fun a ha => h4 a (hp _ ha))

/-- what is in reach of something that can be written can be written -/
theorem writable_ref {env : Env} {m : Mem} {root : V} (h : Writable env m root) {o : Nat} (ho : Reachable m false root (.ref o)) : Writable env m (.ref o) := by
  have hp : ∀ w, Reachable m false (.ref o) w → Reachable m false root w := fun w hw => ho.trans hw
  refine ⟨⟨h.graph.typed, fun l hl => h.graph.flat l (hp _ hl), fun p x hx hr => h.graph.plain p x hx (hp _ hr), fun p x hx hr => h.graph.free p x hx (hp _ hr)⟩,
    fun p hr => h.there p (hp _ hr), by simp [Json.wf], by simp [Json.noTuple], by simp [okV], ?_, ?_, ?_⟩
  · exact fun a b s i ha hb => h.apart a b s i (hp _ ha) (hp _ hb)
  · exact fun s i p hl hr => h.foreign s i p (hp _ hl) (hp _ hr)
  · exact fun b x hx hr n hn v hv => part_names hp (h.back b x hx (hp _ hr) n hn v hv)

/-! ## An entity that refers to no other -/

theorem reach_alone {m : Mem} {p : Nat} {y : EObj} (hp : m[p]? = some y) (hy : ∀ e ∈ y.fields, Json.wf e.2 ∧ Json.noTuple e.2 ∧ noRef e.2) {w : V}
    (h : Reachable m false (.ref p) w) : w = .ref p ∨ (Json.noTuple w ∧ ∀ q, V.ref q ∉ w.subs) := by
  have key : ∀ v w, Reachable m false v w → v = .ref p → w = .ref p ∨ (Json.wf w ∧ Json.noTuple w ∧ ∀ q, V.ref q ∉ w.subs) := by
    intro v w h
    induction h with
    | refl => exact .inl
    | step hr hc ih =>
      rename_i u w
      intro e
      right
      rcases ih e with rfl | ⟨i1, i2, i3⟩
      · cases hc with
        | field hx hm _ =>
          rw [hp] at hx
          cases hx
          obtain ⟨h1, h2, h3⟩ := hy _ hm
          exact ⟨h1, h2, noRef_subs _ h1 h3⟩
      · have hne : ∀ o, u ≠ .ref o := fun o e => i3 o (by rw [e]; exact self_mem_subs _)
        refine ⟨?_, ?_, fun q hq => i3 q (child_subs hc hne q hq)⟩
        · cases hc with
          | list h => simp only [Json.wf, wfs_iff] at i1; exact i1 _ h
          | tuple h => simp only [Json.wf, wfs_iff] at i1; exact i1 _ h
          | key h =>
            simp only [Json.wf] at i1
            obtain ⟨⟨_, names, hs, _⟩, _⟩ := i1
            rw [strings_eq hs] at h
            obtain ⟨n, _, rfl⟩ := List.mem_map.1 h
            simp [Json.wf]
          | value h => simp only [Json.wf, wfs_iff] at i1; exact i1.2 _ h
          | attr h => simp only [Json.wf, wfs_iff] at i1; exact i1.2 _ (List.of_mem_zip h).2
          | scope => simp [Json.wf]
          | id => simp [Json.wf]
          | field _ _ _ => exact absurd rfl (hne _)
        · cases hc with
          | list h => simp only [Json.noTuple, noTuples_mem] at i2; exact i2 _ h
          | tuple h => simp [Json.noTuple] at i2
          | key h =>
            simp only [Json.wf] at i1
            obtain ⟨⟨_, names, hs, _⟩, _⟩ := i1
            rw [strings_eq hs] at h
            obtain ⟨n, _, rfl⟩ := List.mem_map.1 h
            simp [Json.noTuple]
          | value h => simp only [Json.noTuple, noTuples_mem] at i2; exact i2 _ h
          | attr h => simp only [Json.noTuple, noTuples_mem] at i2; exact i2 _ (List.of_mem_zip h).2
          | scope => simp [Json.noTuple]
          | id => simp [Json.noTuple]
          | field _ _ _ => exact absurd rfl (hne _)
  rcases key _ _ h rfl with h | h
  · exact .inl h
  · exact .inr h.2

/-- `dumps` of an entity that refers to no other, and has an id: the context is its record. -/
theorem dumps_alone {env : Env} {m : Mem} (hT : WellTyped env m) {p : Nat} {y : EObj} (hp : m[p]? = some y)
    (hy : ∀ e ∈ y.fields, Json.wf e.2 ∧ Json.noTuple e.2 ∧ noRef e.2) (hd : ∀ e ∈ asDict m y, Json.wf e.2 ∧ Json.noTuple e.2 ∧ noRef e.2) (hu : y.uids ≠ [])
    (scope : String) (gen : Nat → String) (drawn : Nat) :
    ∃ n z w, (∀ n' ≥ n, dumps env scope gen n' m drawn (.ref p) =
        some (.ok (mkDict [("context", .list [recordTree (m ++ [z]) z]), ("object", w)], m ++ [z]))) ∧
      Copy env (m ++ [z]) (linkOf env.lower none true m) y z := by
  have hr : ∀ q, Reachable m false (.ref p) (.ref q) ↔ q = p := by
    intro q
    constructor
    · intro h
      rcases reach_alone hp hy h with e | ⟨_, e⟩
      · cases e; rfl
      · exact absurd (self_mem_subs _) (e q)
    · rintro rfl
      exact .refl _
  have hsub : ∀ e ∈ asDict m y, ∀ q, V.ref q ∉ e.2.subs := fun e he => noRef_subs _ (hd e he).1 (hd e he).2.2
  have hF : Flattenable env m (.ref p) := by
    refine ⟨hT, ?_, ?_, ?_⟩
    · intro l hl
      rcases reach_alone hp hy hl with e | ⟨e, _⟩
      · cases e
      · simp [Json.noTuple] at e
    · intro o x hx ho
      rw [hr] at ho
      subst ho
      rw [hp] at hx
      cases hx
      exact fun e he => ⟨(hd e he).1, (hd e he).2.1⟩
    · intro o x hx ho
      rw [hr] at ho
      subst ho
      rw [hp] at hx
      cases hx
      refine ⟨fun e he _ => hsub e he, ?_⟩
      intro e he t ns vs hm e' he' _ q hq
      refine hsub e he q (subs_trans _ _ hm _ ?_)
      simp only [V.subs, List.mem_cons, mem_subss]
      exact .inr ⟨_, (List.of_mem_zip he').2, hq⟩
  have hI : Identified m (.ref p) := by
    intro o x hx ho
    rw [hr] at ho
    subst ho
    rw [hp] at hx
    cases hx
    exact hu
  have hlt : p < m.length := (List.getElem?_eq_some_iff.1 hp).1
  -- no ids are drawn
  obtain ⟨n1, m1, c1, draw, h1, h2, h3, h4, _⟩ := C38_set_uuids_partial scope gen m drawn (mkDict [("object", .ref p)]) hF.wrap.flat
  have hm1 : m1 = m := by
    apply List.ext_getElem?
    intro o
    cases hx : m[o]? with
    | none =>
      rw [List.getElem?_eq_none_iff] at hx ⊢
      omega
    | some x =>
      rw [h4 o x hx]
      by_cases ho : Reachable m false (mkDict [("object", .ref p)]) (.ref o)
      · exact .inr (hI o x hx (reach_wrap_ref.1 ho))
      · exact .inl ho
  subst hm1
  -- the flat list
  obtain ⟨n2, order, ys, d1, d2, d3, d4, d5, d6⟩ := flatten_core hF.wrap (fun o x hx hr => hI o x hx (reach_wrap_ref.1 hr))
  simp only [reach_wrap_ref, hr] at d2
  have horder : order = [p] := by
    have hall : ∀ q ∈ order, q = p := fun q hq => ((d2 q).1 hq).2
    have hmem : p ∈ order := (d2 p).2 ⟨hlt, rfl⟩
    match order, d1, hall, hmem with
    | [], _, _, h => simp at h
    | [a], _, h, _ => rw [h a (by simp)]
    | a :: b :: l, hn, h, _ =>
      rw [h a (by simp), h b (by simp)] at hn
      simp at hn
  subst horder
  have hkept : kept m1 [] [p] = [p] := by simp [kept]
  rw [hkept] at d3 d6
  match ys, d3, d4, d5, d6 with
  | [z], _, d4, d5, d6 =>
    obtain ⟨y', hy', hc⟩ := d6 0 (by simp) (by simp)
    simp only [List.getElem_cons_zero] at hy' hc
    rw [hp] at hy'
    cases hy'
    have hsorted : sortBy (orderOf (m1 ++ [z])) ((List.range' m1.length [z].length).map .ref) = [.ref m1.length] := by
      simp [List.range', sortBy, insertBy]
    rw [hsorted] at d4
    have hIn : Input env (m1 ++ [z]) none true (mkDict [("object", .ref p)]) (linkOf env.lower none true m1) (.ref p) := by
      refine ⟨by simp [Json.wf], by simp [okV], by simp [Json.noTuple], ?_⟩
      intro o ho
      simp only [V.subs, List.mem_singleton, V.ref.injEq] at ho
      subst ho
      obtain ⟨s, i, e1, e2, _⟩ := linkOf_ok (lower := env.lower) (scope := none) (fallback := true) hp ⟨hu, .inl rfl⟩
      exact ⟨by simp [mkDict], y, s, i, get_append hp _, e1, e2⟩
    have hdict : asDict (m1 ++ [z]) y = asDict m1 y := by
      obtain ⟨vals, own, hs, _⟩ := hT p y hp
      exact asDict_append hs _
    obtain ⟨w, hw, _⟩ := write_context (M := m1 ++ [z]) (ps := [m1.length]) (ys := [z]) rfl hIn (by
      intro i i1 i2
      have : i = 0 := by simpa using i1
      subst this
      refine ⟨by simp, y, ?_, hc⟩
      rw [hdict]
      exact fun e he => ⟨(hd e he).1, (hd e he).2.1⟩)
    refine ⟨max n1 n2, z, tree (fun _ => .none) w, ?_, hc⟩
    intro n' hn'
    unfold dumps
    simp only [flatten, h1 n' (by omega), d4 n' (by omega)]
    simpa using hw

/-! ## The record of an entity -/

/-- `r` is the JSON record of the entity `x`: what `raw_dumps` writes for `x.as_dict()` with links in place of the entities. -/
def Record (lower : String → String) (m : Mem) (x : EObj) (r : V) : Prop :=
  ∃ d : List (String × V), d.map Prod.fst = (asDict m x).map Prod.fst ∧ alikes (LinkTo lower m) SameLink ((asDict m x).map Prod.snd) (d.map Prod.snd) ∧
    (∀ e ∈ d, ∀ q, V.ref q ∉ e.2.subs) ∧ rawDumps [] (mkDict d) = .ok r

theorem copy_fields {env : Env} {m : Mem} {f : Nat → V} {x y : EObj} (hc : Copy env m f x y) : ∀ e ∈ y.fields, Json.wf e.2 ∧ Json.noTuple e.2 ∧ noRef e.2 := by
  obtain ⟨vals, own, ws, name, labels, hs, rfl, h2, h3, h4, h5, h6, h7, h8⟩ := hc
  intro e he
  simp only [loaded, List.mem_append] at he
  rcases he with he | he
  · have := h4 _ (List.of_mem_zip (a := e.1) (b := e.2) he).2
    exact ⟨this.wf, this.noTuple, this.noRef⟩
  · unfold loadedOwn at he
    split at he
    · simp only [List.mem_cons, List.not_mem_nil, or_false] at he
      rcases he with rfl | rfl
      · have := (nameLike_clean (env := env) (m := m) h6).1; exact ⟨this.wf, this.noTuple, this.noRef⟩
      · have := (labelsLike_clean (env := env) (m := m) h7).1; exact ⟨this.wf, this.noTuple, this.noRef⟩
    · have : ∀ c : ECls, c ≠ .ingredientRun → ∀ e ∈ ownFields c, e.2 = .none ∨ e.2 = .list [] := by
        intro c; cases c <;> decide +kernel
      rcases this _ (by assumption) e he with e | e <;> rw [e] <;> simp [Json.wf, Json.wfs, Json.noTuple, noTuples, noRef, noRefs]

/-- what is written for a stripped copy -/
theorem record_tree {env : Env} {m M : Mem} {f : Nat → V} {x y : EObj} (hc : Copy env m f x y) (hall : ∀ e ∈ asDict M y, Json.wf e.2 ∧ noRef e.2) :
    rawDumps [] (mkDict (asDict M y)) = .ok (recordTree M y) := by
  have hd2 : asDict M y = ("type", .str (Equal.typ y.cls)) :: (asDict M y).tail := rfl
  unfold recordTree
  generalize asDict M y = d at *
  generalize Equal.typ y.cls = t at *
  generalize d.tail = fs at *
  subst hd2
  have h1 : encs (encRef [] 1) (fs.map Prod.snd) = .ok (trees (fun _ => .none) (fs.map Prod.snd)) := by
    apply encs_trees
    · rw [wfs_iff]; simp only [List.mem_map]; rintro v ⟨e, he, rfl⟩; exact (hall e (by simp [he])).1
    · rw [noRefs_iff]; simp only [List.mem_map]; rintro v ⟨e, he, rfl⟩; exact (hall e (by simp [he])).2
  have h2 : strings ((("type", V.str t) :: fs).map (fun f => V.str f.1)) = some ((("type", V.str t) :: fs).map Prod.fst) := by
    have := strings_str ((("type", V.str t) :: fs).map Prod.fst)
    rwa [List.map_map] at this
  have h3 : rawDumps [] (mkDict (("type", V.str t) :: fs)) = enc (encRef [] 1) (.dict ((("type", V.str t) :: fs).map (fun f => V.str f.1)) ((("type", V.str t) :: fs).map Prod.snd)) := rfl
  rw [h3]
  simp only [enc, h2]
  simp only [List.map_cons, encs, enc, h1, List.zip_cons_cons]
  rw [trees_eq, ← onSnd_zip, zip_fst_snd]

/-- replacing twice -/
theorem nf_through {F G H : Nat → V} {v u w : V} (hv : Json.wf v) (hu : Json.wf u) (h1 : nf u = nf (tr F .link v)) (h2 : nf w = nf (tr G .link u))
    (hF : ∀ p, V.ref p ∈ v.subs → ∃ q, F p = .ref q ∧ G q = H p) (hG : ∀ q, V.ref q ∈ u.subs → pointerLike (G q))
    (hH : ∀ p, V.ref p ∈ v.subs → pointerLike (H p)) : nf w = nf (tr H .link v) := by
  have hw : Json.wf (tr F .link v) := wf_tr _ _ v hv (fun p hp => by obtain ⟨q, e, _⟩ := hF p hp; rw [e]; simp [Json.wf]) (fun _ _ _ => by simp [Json.wf])
  have e1 : tr G .link (tr F .link v) = tr H .link v := by
    refine tr_tr v hv (fun p hp => ?_) (fun s i _ => by simp [tr])
    obtain ⟨q, e, e2⟩ := hF p hp
    rw [e]
    simpa [tr] using e2
  classical
  let G' : Nat → V := fun q => if pointerLike (G q) then G q else .ref q
  have hG' : ∀ q, pointerLike (G' q) := by
    intro q
    simp only [G']
    split
    · assumption
    · trivial
  have e1 : tr G' .link (tr F .link v) = tr H .link v := by
    refine tr_tr v hv (fun p hp => ?_) (fun s i _ => by simp [tr])
    obtain ⟨q, e, e2⟩ := hF p hp
    rw [e]
    simp only [tr, G']
    rw [if_pos (by rw [e2]; exact hH p hp), e2]
  have e2 : tr G .link u = tr G' .link u := tr_congr u (fun q hq => by simp only [G']; rw [if_pos (hG q hq)])
  rw [h2, e2, tr_nf u hu (fun q _ => hG' q) (fun _ _ _ => by trivial), h1, ← tr_nf (tr F .link v) hw (fun q _ => hG' q) (fun _ _ _ => by trivial), e1]

theorem nfs_through {F G H : Nat → V} {l l' l'' : List V} (hl : ∀ v ∈ l, Json.wf v) (hl' : ∀ v ∈ l', Json.wf v) (h1 : l'.map nf = (l.map (tr F .link)).map nf)
    (h2 : l''.map nf = (l'.map (tr G .link)).map nf)
    (hF : ∀ v ∈ l, ∀ p, V.ref p ∈ v.subs → ∃ q, F p = .ref q ∧ G q = H p) (hG : ∀ v ∈ l', ∀ q, V.ref q ∈ v.subs → pointerLike (G q))
    (hH : ∀ v ∈ l, ∀ p, V.ref p ∈ v.subs → pointerLike (H p)) : l''.map nf = (l.map (tr H .link)).map nf := by
  induction l generalizing l' l'' with
  | nil =>
    simp at h1
    subst h1
    simpa using h2
  | cons v l ih =>
    match l', l'', h1, h2 with
    | u :: l', w :: l'', h1, h2 =>
      simp only [List.map_cons, List.cons.injEq] at h1 h2 ⊢
      refine ⟨nf_through (hl v (by simp)) (hl' u (by simp)) h1.1 h2.1 (hF v (by simp)) (hG u (by simp)) (hH v (by simp)),
        ih (fun v hv => hl v (by simp [hv])) (fun v hv => hl' v (by simp [hv])) h1.2 h2.2 (fun v hv => hF v (by simp [hv])) (fun v hv => hG v (by simp [hv]))
          (fun v hv => hH v (by simp [hv]))⟩
    | u :: l', [], h1, h2 => simp at h2
    | [], w, h1, h2 => simp at h1

/-! ## One call of the body -/

theorem carries_perm {lower : String → String} {m m' : Mem} {o o' : Nat} {x x' : EObj} (hx : m[o]? = some x) (hx' : m'[o']? = some x') (h : x'.uids.Perm x.uids)
    {s i : String} (hc : Carries lower m' o' s i) : Carries lower m o s i := by
  obtain ⟨y, hy, u, hu, e⟩ := hc
  rw [hx'] at hy
  cases hy
  exact ⟨x, hx, u, h.subset hu, e⟩

/-- what `body` does to an entity in reach -/
theorem body_step {env : Env} {gen : Nat → Nat → String} {M : Mem} {mat : V} (rs : List V) (h : Writable env M mat) {o : Nat} (ho : Reachable M false mat (.ref o))
    (hf : Fresh env.lower M mat "auto" (gen (2 * rs.length)) 0) :
    ∃ k M1 x r, (∀ k' ≥ k, body env gen k' (M, rs) (.ref o) = .ok (M1, rs ++ [r])) ∧ Numbered "auto" M M1 (.ref o) ∧ Writable env M1 mat ∧
      (∀ (p : Nat) (y : EObj), M1[p]? = some y → ∃ x : EObj, M[p]? = some x ∧ (y = x ∨ x.uids = [] ∧ ∃ j, y.uids = [("auto", gen (2 * rs.length) j)])) ∧
      M1[o]? = some x ∧ Record env.lower M1 x r := by
  obtain ⟨n1, M1, c1, h1, hnum, hW, hids⟩ := writable_part (part := .ref o) "auto" (gen (2 * rs.length)) 0 h (by decide) (fun w hw => ho.trans hw) hf
  have ho1 : Reachable M1 false mat (.ref o) := (reachable_congr hnum.same).2 ho
  have hWo := writable_ref hW ho1
  have hlen : M1.length = M.length := by simpa using congrArg List.length hnum.same
  have hlt : o < M1.length := hWo.there o (.refl _)
  have hx := List.getElem?_eq_getElem hlt
  generalize M1[o] = x at hx
  obtain ⟨n2, l, _, t, k1, ⟨ys, rfl⟩, kT, k3, k4⟩ := round_trip hWo hnum.all
  obtain ⟨w, m2, φ, j1, hIso, _, j3, j4⟩ := k4 (M1 ++ ys)
  have hext := C44_loads_keeps env _ t w m2 (written_noRef k3) j1
  have hT2 := j3 kT
  have hw : w = .ref (φ o) := by simpa [alike] using hIso.root
  subst hw
  obtain ⟨z, hz, hzc, hzu, hzn, hza, _⟩ := hIso.node o x hx (.refl _)
  have hzp := j4 o z (.refl _) hz
  have hxp := hWo.graph.plain o x hx (.refl _)
  have hxwf : ∀ v ∈ (asDict M1 x).map Prod.snd, Json.wf v ∧ Json.noTuple v := by
    intro v hv
    obtain ⟨e, he, rfl⟩ := List.mem_map.1 hv
    exact hxp e he
  have hzwf : ∀ v ∈ (asDict m2 z).map Prod.snd, Json.wf v ∧ Json.noTuple v := by
    intro v hv
    obtain ⟨e, he, rfl⟩ := List.mem_map.1 hv
    exact hzp e he
  -- entities in the attributes
  have hrefs : ∀ v ∈ (asDict M1 x).map Prod.snd, ∀ p, V.ref p ∈ v.subs → p ≠ o ∧ ∃ y zy, M1[p]? = some y ∧ m2[φ p]? = some zy ∧ φ p ≠ φ o ∧ zy.uids.Perm y.uids ∧
      Linkable env.lower none true zy := by
    intro v hv p hp
    obtain ⟨e, he, rfl⟩ := List.mem_map.1 hv
    obtain ⟨f1, f2⟩ := hWo.graph.free o x hx (.refl _)
    obtain ⟨y, hy, hlt⟩ := forward_refs hWo.graph.typed hx f1 f2 he hp
    have hr := reach_asDict (uni := false) hWo.graph.typed hx (.refl _) he (hxp e he).1 hp
    have hne : p ≠ o := by
      rintro rfl
      rw [hx] at hy
      cases hy
      omega
    obtain ⟨zy, hzy, _, hu, _⟩ := hIso.node p y hy hr
    refine ⟨hne, y, zy, hy, hzy, fun e => hne (hIso.inj p o hr (.refl _) e), hu, ?_, .inl rfl⟩
    intro e
    rw [e] at hu
    exact hnum.all p y hy hr hu.symm.eq_nil
  have hback : ∀ v ∈ (asDict m2 z).map Prod.snd, ∀ q, V.ref q ∈ v.subs → ∃ p, (∃ v ∈ (asDict M1 x).map Prod.snd, V.ref p ∈ v.subs) ∧ q = φ p := by
    intro v hv q hq
    obtain ⟨p, hp, e⟩ := alikes_ref _ _ (by rw [wfs_iff]; exact fun v hv => (hxwf v hv).1) hza q (mem_subss.2 ⟨v, hv, hq⟩) (fun o w h => ⟨_, h⟩)
    obtain ⟨v', hv', hp⟩ := mem_subss.1 hp
    cases e
    exact ⟨p, ⟨v', hv', hp⟩, rfl⟩
  -- the copy with links
  obtain ⟨y, s1, hc⟩ := strip_copied env m2 none true hT2 (φ o) z hz hzp (by
    intro e he q hq
    obtain ⟨p, ⟨v, hv, hp⟩, rfl⟩ := hback e.2 (List.mem_map_of_mem he) q hq
    obtain ⟨_, _, zy, _, hzy, hne, _, hl⟩ := hrefs v hv p hp
    exact ⟨hne, zy, hzy, hl⟩)
  have hTy := hc.wellTyped hT2
  obtain ⟨a1, a2, a3⟩ := hc.attrs (Grows.append m2 [y]) hzp
  obtain ⟨hyc, hyu⟩ := hc.uids
  have hyne : y.uids ≠ [] := by
    intro e
    rw [e] at hyu
    have := hyu.symm.eq_nil
    rw [this] at hzu
    exact hnum.all o x hx (.refl _) hzu.symm.eq_nil
  have hyd : ∀ e ∈ asDict (m2 ++ [y]) y, Json.wf e.2 ∧ Json.noTuple e.2 ∧ noRef e.2 := by
    intro e he
    have := a3 _ (List.mem_map_of_mem he)
    exact ⟨this.wf, this.noTuple, this.noRef⟩
  have hyget : (m2 ++ [y])[m2.length]? = some y := by simp
  obtain ⟨n3, z2, w2, s2, hc2⟩ := dumps_alone hTy hyget (copy_fields hc) hyd hyne "auto" (gen (2 * rs.length + 1)) 0
  have hdy : asDict ((m2 ++ [y]) ++ [z2]) y = asDict (m2 ++ [y]) y := by
    obtain ⟨vals, own, hs, _⟩ := hTy _ y hyget
    exact asDict_append hs _
  obtain ⟨b1, b2, b3⟩ := hc2.attrs (Grows.refl _) (by rw [hdy]; exact fun e he => ⟨(hyd e he).1, (hyd e he).2.1⟩)
  rw [hdy] at b1 b2
  refine ⟨max (max n1 n2) n3, M1, x, recordTree ((m2 ++ [y]) ++ [z2]) z2, ?_, hnum, hW, ?_, hx, asDict ((m2 ++ [y]) ++ [z2]) z2, ?_, ?_, ?_, ?_⟩
  · intro k' hk'
    have hd : dumps env "auto" (gen (2 * rs.length)) k' M 0 (.ref o) = some (.ok (t, M1 ++ ys)) := by
      unfold dumps
      simp only [flatten, h1 k' (by omega), k1 k' (by omega), k3]
    have e8 : strings [V.str "context", .str "object"] = some ["context", "object"] := by rfl
    have htake : ((m2 ++ [y]) ++ [z2]).take M.length = M1 := by
      obtain ⟨extra, e⟩ := hext
      rw [e, ← hlen]
      simp only [List.append_assoc]
      rw [List.take_append_of_le_length (Nat.le_refl _), List.take_length]
    unfold body
    simp only [hd, j1, s1, s2 k' (by omega), firstRecord, mkDict, List.map_cons, List.map_nil, e8, List.zip_cons_cons, List.zip_nil_left, Dict.get?, if_true, htake]
  · intro p y' hy'
    obtain ⟨x', hx', h⟩ := hids p y' hy'
    refine ⟨x', hx', h.imp id ?_⟩
    rintro ⟨h1, j, _, h2⟩
    exact ⟨h1, j, h2⟩
  · rw [b1, a1, hzn]
  · have e1 : ((asDict m2 z).map Prod.snd).map nf = (((asDict M1 x).map Prod.snd).map (tr (fun p => .ref (φ p)) .link)).map nf := by
      refine nfs_alike _ _ (by rw [wfs_iff]; exact fun v hv => (hxwf v hv).1) ?_ (by rw [noTuples_mem]; exact fun v hv => (hxwf v hv).2)
      exact alikes_mono _ _ (fun _ _ _ h => h) (fun _ _ _ _ h => h) hza
    have e2 : ((asDict ((m2 ++ [y]) ++ [z2]) z2).map Prod.snd).map nf = ((asDict (m2 ++ [y]) y).map Prod.snd).map nf := by
      rw [b2]
      simp only [List.map_map]
      apply List.map_congr_left
      intro e he
      obtain ⟨g1, g2, g3⟩ := hyd e he
      simp only [Function.comp]
      rw [tr_congr (f' := .ref) e.2 (fun q hq => absurd hq (noRef_subs _ g1 g3 q)), nf_tr _ g1]
    rw [a2] at e2
    have hlink : ∀ v ∈ (asDict M1 x).map Prod.snd, ∀ p, V.ref p ∈ v.subs → LinkTo env.lower M1 p (linkOf env.lower none true m2 (φ p)) := by
      intro v hv p hp
      obtain ⟨_, y', zy, hy', hzy, _, hu, hl⟩ := hrefs v hv p hp
      obtain ⟨s, i, _, e2, e3⟩ := linkOf_ok hzy hl
      exact ⟨s, i, e2, carries_perm hy' hzy hu e3⟩
    have hpl : ∀ v ∈ (asDict M1 x).map Prod.snd, ∀ p, V.ref p ∈ v.subs → pointerLike (linkOf env.lower none true m2 (φ p)) := by
      intro v hv p hp
      obtain ⟨s, i, e, _⟩ := hlink v hv p hp
      rw [e]
      trivial
    have e3 := nfs_through (H := fun p => linkOf env.lower none true m2 (φ p)) (fun v hv => (hxwf v hv).1) (fun v hv => (hzwf v hv).1) e1 e2
      (fun v hv p hp => ⟨_, rfl, rfl⟩) (fun v hv q hq => by
        obtain ⟨p, ⟨v', hv', hp⟩, rfl⟩ := hback v hv q hq
        exact hpl v' hv' p hp) hpl
    have key := alikes_nf (f := fun p => linkOf env.lower none true m2 (φ p)) (g := .link) _ _ (by rw [wfs_iff]; exact fun v hv => (hxwf v hv).1)
      (by rw [noTuples_mem]; exact fun v hv => (hxwf v hv).2) (by rw [wfs_iff]; exact fun v hv => (b3 v hv).wf)
      (by rw [noTuples_mem]; exact fun v hv => (b3 v hv).noTuple) (fun p hp => by
        obtain ⟨v, hv, hp⟩ := mem_subss.1 hp
        exact hpl v hv p hp) (fun _ _ _ => by trivial) e3
    refine alikes_mono _ _ ?_ (fun _ _ _ _ h => h) key
    rintro p w' hp rfl
    obtain ⟨v, hv, hp⟩ := mem_subss.1 hp
    exact hlink v hv p hp
  · intro e he
    have := b3 _ (List.mem_map_of_mem he)
    exact noRef_subs _ this.wf this.noRef
  · refine record_tree hc2 ?_
    intro e he
    have := b3 _ (List.mem_map_of_mem he)
    exact ⟨this.wf, this.noRef⟩

/-! ## All calls -/

theorem dumps_noRef {env : Env} {scope : String} {gen : Nat → String} {n : Nat} {m : Mem} {drawn : Nat} {obj t : V} {m' : Mem}
    (h : dumps env scope gen n m drawn obj = some (.ok (t, m'))) : noRef t := by
  unfold dumps at h
  split at h
  · cases h
  · cases h
  · simp only [Option.some.injEq] at h
    exact written_noRef h

/-- `body` does not rewire the graph -/
theorem body_keeps {env : Env} {gen : Nat → Nat → String} {k : Nat} {s s' : Mem × List V} {obj : V} (h : body env gen k s obj = .ok s') : SameGraph s.1 s'.1 := by
  unfold body at h
  split at h
  · cases h
  · cases h
  · rename_i t m1 h1
    split at h
    · cases h
    · rename_i w m2 h2
      split at h
      · cases h
      · rename_i copy m3 h3
        split at h
        · cases h
        · cases h
        · rename_i t2 m4 h4
          split at h
          · cases h
          · cases h
            have e2 := C44_loads_keeps env m1 t w m2 (dumps_noRef h1) h2
            have e3 : Extends m2 m3 := substitute_extends h3
            apply List.ext_getElem?
            intro o
            simp only [List.getElem?_map]
            cases hx : s.1[o]? with
            | none =>
              rw [List.getElem?_eq_none_iff] at hx
              rw [List.getElem?_eq_none (by rw [List.length_take]; omega)]
            | some x =>
              obtain ⟨y, hy, c1, c2, _⟩ := C44_dumps_keeps env _ _ _ _ _ _ _ _ h1 o x hx
              have hy3 := extends_get e3 (extends_get e2 hy)
              obtain ⟨z, hz, d1, d2, _⟩ := C44_dumps_keeps env _ _ _ _ _ _ _ _ h4 o y hy3
              rw [List.getElem?_take_of_lt (List.getElem?_eq_some_iff.1 hx).1, hz]
              simp [c1, c2, d1, d2]

/-- what has happened to the memory so far: entities in reach that had no id may have got one -/
structure Gained (m m1 : Mem) (root : V) : Prop where
  same : SameGraph m m1
  uids : ∀ o x, m[o]? = some x → ∃ y, m1[o]? = some y ∧
    (y.uids = x.uids ∨ x.uids = [] ∧ Reachable m false root (.ref o) ∧ ∃ g, y.uids = [("auto", g)])

theorem Gained.refl (m : Mem) (root : V) : Gained m m root := ⟨sameGraph_refl m, fun o x hx => ⟨x, hx, .inl rfl⟩⟩

theorem Gained.trans {a b c : Mem} {root : V} (h : Gained a b root) (g : Gained b c root) : Gained a c root := by
  refine ⟨sameGraph_trans h.same g.same, ?_⟩
  intro o x hx
  obtain ⟨y, hy, h1⟩ := h.uids o x hx
  obtain ⟨z, hz, h2⟩ := g.uids o y hy
  refine ⟨z, hz, ?_⟩
  rcases h1 with h1 | ⟨e1, r1, i1, h1⟩
  · rcases h2 with h2 | ⟨e2, r2, h2⟩
    · exact .inl (h2.trans h1)
    · exact .inr ⟨h1 ▸ e2, (reachable_congr h.same).1 r2, h2⟩
  · rcases h2 with h2 | ⟨e2, r2, h2⟩
    · exact .inr ⟨e1, r1, i1, h2.trans h1⟩
    · rw [h1] at e2; simp at e2

/-- an entity with an id stays as it is -/
theorem Gained.kept {a b : Mem} {root : V} (h : Gained a b root) {o : Nat} {x : EObj} (hx : a[o]? = some x) (hu : x.uids ≠ []) : b[o]? = some x := by
  obtain ⟨y, hy, h1⟩ := h.uids o x hx
  obtain ⟨x', hx', c1, c2⟩ := same_back h.same hy
  rw [hx] at hx'
  cases hx'
  rcases h1 with h1 | ⟨e, _⟩
  · rw [hy]
    cases x; cases y
    simp_all
  · exact absurd e hu

theorem Record.gained {lower : String → String} {a b : Mem} {root : V} (h : Gained a b root) {x : EObj} {r : V} (hr : Record lower a x r) : Record lower b x r := by
  obtain ⟨d, h1, h2, h3, h4⟩ := hr
  obtain ⟨t, e1, e2⟩ := asDict_same h.same (x := x) (y := x) rfl rfl
  have e : asDict b x = asDict a x := e1.trans e2.symm
  refine ⟨d, by rw [e]; exact h1, ?_, h3, h4⟩
  rw [e]
  refine alikes_mono _ _ ?_ (fun _ _ _ _ h => h) h2
  rintro p w _ ⟨s, i, rfl, y, hy, u, hu, hl⟩
  exact ⟨s, i, rfl, y, h.kept hy (List.ne_nil_of_mem hu), u, hu, hl⟩

/-- No two draws give the same id, and none gives an id that is in use, or that a link in reach means. -/
structure NewIds (lower : String → String) (m : Mem) (root : V) (gen : Nat → Nat → String) : Prop where
  inj : ∀ c k c' k', gen c k = gen c' k' → c = c' ∧ k = k'
  ids : ∀ c k p, Reachable m false root (.ref p) → ¬ Carries lower m p (lower "auto") (gen c k)
  links : ∀ c k s, Reachable m false root (.link s (gen c k)) → lower s ≠ lower "auto"

theorem calls_spec {env : Env} {gen : Nat → Nat → String} {mat : V} (hinj : ∀ c k c' k', gen c k = gen c' k' → c = c' ∧ k = k') (os : List Nat) (M : Mem) (rs : List V)
    (h : Writable env M mat) (hf : ∀ c ≥ 2 * rs.length, Fresh env.lower M mat "auto" (gen c) 0) (ho : ∀ o ∈ os, Reachable M false mat (.ref o)) :
    ∃ k M' rs', (∀ k' ≥ k, calls (body env gen k') (M, rs) (os.map .ref) = .ok (M', rs ++ rs')) ∧ Gained M M' mat ∧ rs'.length = os.length ∧
      ∀ (i : Nat) (o : Nat), os[i]? = some o → ∃ (x : EObj) (r : V), M'[o]? = some x ∧ x.uids ≠ [] ∧ rs'[i]? = some r ∧ Record env.lower M' x r := by
  induction os generalizing M rs with
  | nil => exact ⟨0, M, [], fun _ _ => by simp [calls], .refl M mat, rfl, by simp⟩
  | cons o os ih =>
    obtain ⟨k1, M1, x, r, h1, h2, h3, h4, h5, h6⟩ := body_step (gen := gen) rs h (ho o (by simp)) (hf _ (Nat.le_refl _))
    have hreach : ∀ {w}, Reachable M1 false mat w ↔ Reachable M false mat w := reachable_congr h2.same
    have hg : Gained M M1 mat := by
      refine ⟨h2.same, fun p y hy => ?_⟩
      obtain ⟨z, hz, hc⟩ := h2.uids p y hy
      refine ⟨z, hz, hc.imp id ?_⟩
      rintro ⟨e1, e2, e3⟩
      exact ⟨e1, (ho o (by simp)).trans e2, e3⟩
    obtain ⟨k2, M', rs', i1, i2, i3, i4⟩ := ih M1 (rs ++ [r]) h3 (by
      intro c hc
      simp only [List.length_append, List.length_cons, List.length_nil] at hc
      have hF := hf c (by omega)
      refine ⟨hF.inj, ?_, fun k hk s hl => hF.links k hk s (hreach.1 hl)⟩
      rintro k hk p hp ⟨y, hy, u, hu, hl⟩
      obtain ⟨x', hx', h | ⟨_, j, e⟩⟩ := h4 p y hy
      · subst h
        exact hF.ids k hk p (hreach.1 hp) ⟨y, hx', u, hu, hl⟩
      · rw [e] at hu
        simp only [List.mem_singleton, Prod.mk.injEq] at hu
        have := (hinj _ _ _ _ hu.2).1
        omega) (fun p hp => hreach.2 (ho p (by simp [hp])))
    have hu : x.uids ≠ [] := h2.all o x h5 (.refl _)
    refine ⟨max k1 k2, M', r :: rs', ?_, hg.trans i2, by simp [i3], ?_⟩
    · intro k' hk'
      simp only [List.map_cons, calls, h1 k' (by omega), i1 k' (by omega), List.append_assoc, List.cons_append, List.nil_append]
    · intro i p hp
      cases i with
      | zero =>
        simp only [List.getElem?_cons_zero, Option.some.injEq] at hp
        subst hp
        exact ⟨x, r, i2.kept h5 hu, hu, rfl, h6.gained i2⟩
      | succ i =>
        simp only [List.getElem?_cons_succ] at hp ⊢
        exact i4 i p hp

/-- C54: `complete_material_history(mat)` returns a list with exactly one record for each entity in reach of `mat`. The record of an entity is its `as_dict()`, written
as JSON, with links in place of entities (`Record`). Afterwards every entity in reach has an id - those that had none got one under the scope `auto` - and nothing
else about what existed has changed (`Numbered`); the links use these ids.

What is asked of `mat` is what `dumps` asks (C43): type-correct, without tuples and keys `type`, unambiguous ids, no link that means an entity in reach, and
back-links that are up to date. -/
theorem C54_history_partial (env : Env) (gen : Nat → Nat → String) (m : Mem) (mat : V) (h : Writable env m mat) (hn : NewIds env.lower m mat gen) :
    ∃ (k n : Nat) (m' : Mem) (os : List Nat) (rs : List V), (∀ k' ≥ k, ∀ n' ≥ n, completeMaterialHistory env gen k' n' m mat = some (.ok (rs, m'))) ∧
      Numbered "auto" m m' mat ∧ os.Nodup ∧ (∀ o, o ∈ os ↔ Reachable m false mat (.ref o)) ∧ rs.length = os.length ∧
      ∀ (i : Nat) (o : Nat), os[i]? = some o → ∃ (x : EObj) (r : V), m'[o]? = some x ∧ rs[i]? = some r ∧ Record env.lower m' x r := by
  obtain ⟨n, order, h1, h2, h3⟩ := visit_order (τ := List V) m mat h.graph.flat
  obtain ⟨os, rfl⟩ := refs_of (fun x hx => ((h2 x).1 hx).1)
  have hmem : ∀ o, o ∈ os ↔ Reachable m false mat (.ref o) := by
    intro o
    have := h2 (.ref o)
    rw [List.mem_map] at this
    constructor
    · intro ho
      exact (this.1 ⟨o, ho, rfl⟩).2
    · intro hr
      obtain ⟨p, hp, e⟩ := this.2 ⟨⟨o, h.there o hr, rfl⟩, hr⟩
      cases e
      exact hp
  obtain ⟨k, m', rs, c1, c2, c3, c4⟩ := calls_spec hn.inj os m [] h (fun c _ => ⟨fun j k e => (hn.inj _ _ _ _ e).2, fun k _ => hn.ids c k, fun k _ => hn.links c k⟩)
    (fun o ho => (hmem o).1 ho)
  refine ⟨k, n, m', os, rs, ?_, ⟨c2.same, c2.uids, ?_⟩, (List.pairwise_map.1 h1).imp (fun h e => h (by rw [e])), hmem, c3, ?_⟩
  · intro k' hk' n' hn'
    unfold completeMaterialHistory
    rw [h3 false (body env gen k') (fun s x s' => body_keeps) [] n' hn', c1 k' hk']
    simp
  · intro o x hx hr
    obtain ⟨i, hi, rfl⟩ := List.getElem_of_mem ((hmem o).2 ((reachable_congr c2.same).1 hr))
    obtain ⟨x', _, hx', hu, _⟩ := c4 i _ (List.getElem?_eq_getElem hi)
    rw [hx] at hx'
    cases hx'
    exact hu
  · intro i o ho
    obtain ⟨x, r, e1, _, e2, e3⟩ := c4 i o ho
    exact ⟨x, r, e1, e2, e3⟩

/-- C54 for entities made by constructors: nothing is asked of back-links, except that no two materials in reach have the same process. -/
theorem C54_built_partial (env : Env) (hsane : Sane env) (gen : Nat → Nat → String) (m : Mem) (hb : Built env m) (mat : V)
    (graph : Flattenable env m mat) (there : ∀ o, Reachable m false mat (.ref o) → o < m.length) (hwf : Json.wf mat) (htup : Json.noTuple mat) (hok : okV env m mat)
    (apart : Unambiguous env.lower m mat) (foreign : Foreign env.lower m mat)
    (one : ∀ a c b, Reachable m false mat (.ref a) → Reachable m false mat (.ref c) → Points m "_output_material" a b → Points m "_output_material" c b → a = c)
    (hn : NewIds env.lower m mat gen) :
    ∃ (k n : Nat) (m' : Mem) (os : List Nat) (rs : List V), (∀ k' ≥ k, ∀ n' ≥ n, completeMaterialHistory env gen k' n' m mat = some (.ok (rs, m'))) ∧
      Numbered "auto" m m' mat ∧ os.Nodup ∧ (∀ o, o ∈ os ↔ Reachable m false mat (.ref o)) ∧ rs.length = os.length ∧
      ∀ (i : Nat) (o : Nat), os[i]? = some o → ∃ (x : EObj) (r : V), m'[o]? = some x ∧ rs[i]? = some r ∧ Record env.lower m' x r :=
  C54_history_partial env gen m mat ⟨graph, there, hwf, htup, hok, apart, foreign, Built.backLinked hsane hb one⟩ hn

/-! ### The hypotheses can be met -/

/-- draws that differ -/
def draws (c k : Nat) : String := xs ((c + k) * (c + k) + c)

theorem draws_inj (c k c' k' : Nat) (h : draws c k = draws c' k') : c = c' ∧ k = k' := by
  have h := xs_inj _ _ h
  have key : ∀ a b x y : Nat, x ≤ a → a < b → a * a + x ≠ b * b + y := by
    intro a b x y hx hab e
    have := Nat.mul_le_mul (show a + 1 ≤ b by omega) (show a + 1 ≤ b by omega)
    simp only [Nat.add_mul, Nat.mul_add] at this
    omega
  rcases Nat.lt_trichotomy (c + k) (c' + k') with hlt | he | hlt
  · exact absurd h (key _ _ _ _ (by omega) hlt)
  · rw [he] at h
    omega
  · exact absurd h.symm (key _ _ _ _ (by omega) hlt)

theorem trip_new : NewIds plainEnv.lower trip (.ref 4) draws := by
  refine ⟨draws_inj, ?_, ?_⟩
  · intro c k p _ hc
    obtain ⟨_, _, h, _⟩ := trip_uids hc
    simp [plainEnv] at h
  · intro c k s h
    rw [(trip_link h).1]
    simp [plainEnv]

/-- a material with a process that has two ingredients, one of which uses a material that is not there, and a measurement: there is a record for each -/
example : ∃ (k n : Nat) (m' : Mem) (os : List Nat) (rs : List V),
    (∀ k' ≥ k, ∀ n' ≥ n, completeMaterialHistory plainEnv draws k' n' trip (.ref 4) = some (.ok (rs, m'))) ∧ rs.length = os.length ∧ 4 ∈ os := by
  obtain ⟨h1, h2, h3, h4, h5, h6, h7, h8, h9⟩ := trip_meets
  obtain ⟨k, n, m', os, rs, g1, _, _, g2, g3, _⟩ := C54_built_partial plainEnv plainEnv_sane draws trip h1 (.ref 4) h2 h3 (by simp [Json.wf]) (by simp [Json.noTuple]) h4 h5 h6 h7 trip_new
  exact ⟨k, n, m', os, rs, g1, g3, (g2 4).2 (.refl _)⟩

/-- how many records there are: two of the ten entities are not in reach -/
example : ((completeMaterialHistory plainEnv draws 200 200 trip (.ref 4)).map (fun r => match r with | .ok (rs, _) => rs.length | .error _ => 0)) = some 8 := by decide +kernel

/-! ### Ids that differ in the case of the scope -/

/-- an environment in which `ID` and `id` are the same scope -/
def caseEnv : Env := { plainEnv with lower := fun s => if s = "ID" then "id" else s }

/-- a material with the id `1` under `id` and a measurement of it with the id `1` under `ID` -/
def caseCalls : List (ECls × List (String × V)) :=
  [(.materialRun, [("name", .str "m"), idArg "1"]), (.measurementRun, [("name", .str "u"), ("material", .ref 0), ("uids", .dict [.str "ID"] [.str "1"])])]

/-- what they make -/
def caseMem : Mem := match callAll caseEnv [] caseCalls with
  | .ok m => m
  | .error _ => []

/-- the field `type` of a record -/
def typeOf : V → Option V
  | .dict ks vs => (strings ks).bind (fun names => Dict.get? (names.zip vs) "type")
  | _ => none

/-- C54 is false without unambiguous ids: `flatten` tells the two ids apart and writes both entities, `loads` does not and takes the measurement for the material.
The history of the material has two records of the measurement, and none of the material. -/
theorem C54_scope_case_counterexample :
    (∃ x, caseMem[0]? = some x ∧ x.cls = .materialRun) ∧
      (completeMaterialHistory caseEnv draws 50 50 caseMem (.ref 0)).map (fun r => match r with | .ok (rs, _) => rs.map typeOf | .error _ => []) =
        some [some (.str "measurement_run"), some (.str "measurement_run")] := by decide +kernel

end Verif.History
