import Verif.Props.Lift
/-!
# Reading the records of stripped entities one after the other
-/

set_option linter.unusedSimpArgs false
set_option linter.unusedVariables false
set_option linter.unusedSectionVars false

namespace Verif.Substitute
open Verif.Py Verif.Value Verif.Schema Verif.Json Verif.Traverse

/-! ## Back references -/

/-- the attribute of `o'` that has a counterpart `n` holds `o` -/
def pointsBack (m : Mem) (n : String) (o' o : Nat) : Bool := match m[o']? with
  | none => false
  | some x => match backRef x.cls with
    | none => false
    | some (there, back) => decide (back = n) && decide (Dict.get? x.fields there = some (.ref o))

/-- the images of those that point back, in order -/
def backers (m : Mem) (F : Nat → V) (os : List Nat) (n : String) (o : Nat) : List V := (os.filter (fun o' => pointsBack m n o' o)).map F

/-- what a back reference holds: a list, or the last -/
def backVal (n : String) (bs : List V) : V := if n = "_output_material" then bs.getLast?.getD .none else .list bs

/-- the attributes besides the arguments after those in `os` have been read -/
def ownAt (m : Mem) (F : Nat → V) (os : List Nat) (c : ECls) (o : Nat) (name labels : V) : List (String × V) :=
  if c = .ingredientRun then [("_name", name), ("_labels", labels)] else (ownFields c).map (fun e => (e.1, backVal e.1 (backers m F os e.1 o)))

theorem ownFields_empty (c : ECls) (hc : c ≠ .ingredientRun) : (ownFields c).map (fun e => (e.1, backVal e.1 [])) = ownFields c := by
  have key : ∀ c : ECls, c = .ingredientRun ∨ (ownFields c).map (fun e => (e.1, backVal e.1 [])) = ownFields c := by
    intro c; cases c <;> first | exact .inl rfl | exact .inr rfl
  exact (key c).resolve_left hc

theorem ownFields_back (c : ECls) (hc : c ≠ .ingredientRun) : ∀ e ∈ ownFields c, e.1 ∈ backNames := by
  cases c <;> first | exact absurd rfl hc | decide +kernel

theorem ownAt_empty {m : Mem} {F : Nat → V} {os : List Nat} {c : ECls} {o : Nat} (name labels : V) (h : ∀ n, ∀ p ∈ os, pointsBack m n p o = false) :
    ownAt m F os c o name labels = loadedOwn c name labels := by
  unfold ownAt loadedOwn
  split
  · rfl
  · rename_i hc
    have : ∀ n, backers m F os n o = [] := by
      intro n
      unfold backers
      rw [List.filter_eq_nil_iff.2 (fun p hp => by simp [h n p hp])]
      rfl
    simp only [this]
    exact ownFields_empty c hc

/-- one more has been read that does not point to `o` -/
theorem ownAt_other {m : Mem} {F : Nat → V} {os : List Nat} {c : ECls} {o p : Nat} (name labels : V) (h : ∀ n, pointsBack m n p o = false) :
    ownAt m F (os ++ [p]) c o name labels = ownAt m F os c o name labels := by
  unfold ownAt backers
  simp [List.filter_append, h]

theorem backVal_append (back : String) (bs : List V) (w : V) :
    (if back = "_output_material" then fun _ => w else appendTo w) (backVal back bs) = backVal back (bs ++ [w]) := by
  unfold backVal
  split
  · simp
  · simp [appendTo]

/-- one more has been read that points to `o` -/
theorem ownAt_point {m : Mem} {F : Nat → V} {os : List Nat} {c : ECls} {o p : Nat} (name labels : V) {back : String} (hb : back ∈ backNames)
    (h : ∀ n, pointsBack m n p o = decide (back = n)) :
    (ownAt m F os c o name labels).map (fun g => if g.1 = back then (g.1, (if back = "_output_material" then fun _ => F p else appendTo (F p)) g.2) else g) =
      ownAt m F (os ++ [p]) c o name labels := by
  unfold ownAt
  by_cases hc : c = .ingredientRun
  · rw [if_pos hc, if_pos hc]
    have e1 : "_name" ≠ back := by intro e; subst e; simp [backNames] at hb
    have e2 : "_labels" ≠ back := by intro e; subst e; simp [backNames] at hb
    simp [e1, e2]
  · rw [if_neg hc, if_neg hc, List.map_map]
    apply List.map_congr_left
    intro e _
    simp only [Function.comp]
    by_cases he : e.1 = back
    · rw [if_pos he, he, backVal_append]
      congr 2
      unfold backers
      simp [List.filter_append, h]
    · rw [if_neg he]
      congr 2
      unfold backers
      have : ¬ back = e.1 := fun e' => he e'.symm
      simp [List.filter_append, h, this]

/-! ## What is read -/

/-- The entities `L` of `M` can be restored from their stripped records: their attributes are plain, they refer to earlier ones only, each
has its link, no link in them means one of them, and no two carry the same id. -/
structure Source (env : Env) (M : Mem) (f : Nat → V) (L : List Nat) : Prop where
  typed : WellTyped env M
  nodup : L.Nodup
  plain : ∀ o ∈ L, ∀ x, M[o]? = some x → ∀ e ∈ asDict M x, wf e.2 ∧ noTuple e.2
  refs : ∀ k (h : k < L.length), ∀ x, M[L[k]]? = some x → ∀ e ∈ asDict M x, ∀ p, V.ref p ∈ e.2.subs → ∃ b, ∃ hb : b < L.length, b < k ∧ L[b] = p
  link : ∀ o ∈ L, ∃ s i, f o = .link s i ∧ Carries env.lower M o (env.lower s) i
  foreign : ∀ o ∈ L, ∀ x, M[o]? = some x → ∀ e ∈ asDict M x, ∀ s i, V.link s i ∈ e.2.subs → ∀ p ∈ L, ¬ Carries env.lower M p (env.lower s) i
  apart : ∀ p ∈ L, ∀ q ∈ L, ∀ s i, Carries env.lower M p s i → Carries env.lower M q s i → p = q

theorem get_inj {L : List Nat} (hn : L.Nodup) {a b : Nat} (ha : a < L.length) (hb : b < L.length) (h : L[a] = L[b]) : a = b := by
  rw [List.nodup_iff_pairwise_ne, List.pairwise_iff_getElem] at hn
  rcases Nat.lt_trichotomy a b with hlt | he | hgt
  · exact absurd h (hn a b ha hb hlt)
  · exact he
  · exact absurd h.symm (hn b a hb ha hgt)

/-- where an entity comes to lie -/
def imageOf (base : Nat) (L : List Nat) (o : Nat) : V := .ref (base + L.idxOf o)

theorem idx_get {L : List Nat} (hn : L.Nodup) {k : Nat} (hk : k < L.length) : L.idxOf L[k] = k := by
  have h : L.idxOf L[k] < L.length := List.idxOf_lt_length_of_mem (List.getElem_mem hk)
  have e : L[L.idxOf L[k]] = L[k] := List.getElem_idxOf h
  exact get_inj hn h hk e

theorem imageOf_get {base : Nat} {L : List Nat} (hn : L.Nodup) {k : Nat} (hk : k < L.length) : imageOf base L L[k] = .ref (base + k) := by
  unfold imageOf
  rw [idx_get hn hk]

/-- `z` is the image of `x`, after those in `os` have been read -/
def Image (env : Env) (M : Mem) (F : Nat → V) (os : List Nat) (m' : Mem) (o : Nat) (x z : EObj) : Prop := ∃ vals own us name labels,
  Shape env M x vals own ∧ nameLike name ∧ labelsLike labels ∧
  ingredientPart M x own = (if x.cls = .ingredientRun then [("name", name), ("labels", labels)] else []) ∧
  z.cls = x.cls ∧ z.uids = sortUids (sortUids x.uids) ∧ Shape env m' z us (ownAt M F os x.cls o name labels) ∧
  us.map nf = (vals.map (tr F .link)).map nf ∧ ∀ u ∈ us, wf u ∧ noTuple u

/-- after `j` records have been read into a memory with `base` entities -/
structure Loaded (env : Env) (M : Mem) (L : List Nat) (base j : Nat) (st : Loading) : Prop where
  len : st.mem.length = base + j
  image : ∀ k (hk : k < L.length), k < j → ∃ x z, M[L[k]]? = some x ∧ st.mem[base + k]? = some z ∧
    Image env M (imageOf base L) (L.take j) st.mem L[k] x z
  index : ∀ s i q, Dict.get? st.index (s, i) = some q ↔ ∃ k, ∃ hk : k < L.length, k < j ∧ q = base + k ∧ Carries env.lower M L[k] s i

/-- the record of an entity, as written -/
def recordTree (m : Mem) (y : EObj) : V :=
  mkDict (sortFields (("type", .str (Equal.typ y.cls)) :: onSnd (tree fun _ => .none) (asDict m y).tail))

theorem setAll_fixed (env : Env) (m : Mem) (args : List EArg) (vs : List V) (hl : vs.length = args.length)
    (h : ∀ p ∈ args.zip vs, conv env m p.1.kind p.2 = .ok p.2) : setAll env m ((args.zip vs).map (fun p => (p.1.kind, p.2))) = .ok vs := by
  have := setAll_of env m (args.map EArg.arg) vs (by simp [hl]) (by
    intro p hp
    rw [List.zip_map_left] at hp
    obtain ⟨q, hq, rfl⟩ := List.mem_map.1 hp
    exact h q hq)
  rw [List.zip_map_left, List.map_map] at this
  exact this

theorem zip_nth {α β : Type} {as : List α} {bs : List β} {i : Nat} (h1 : i < as.length) (h2 : i < bs.length) : (as[i], bs[i]) ∈ as.zip bs := by
  apply List.mem_of_getElem? (i := i)
  rw [List.getElem?_zip_eq_some]
  exact ⟨List.getElem?_eq_getElem h1, List.getElem?_eq_getElem h2⟩

theorem pointerLike_readLink (env : Env) (st : Loading) (s i : String) : pointerLike (readLink env true st s i) := by
  unfold readLink loadLink
  simp only [if_true]
  split <;> trivial

section
variable {env : Env} {M : Mem} {f : Nat → V} {L : List Nat} {base j : Nat} {st : Loading}

/-- a link that means one of those read becomes that one -/
theorem Loaded.known (hI : Loaded env M L base j st) (hS : Source env M f L) {k : Nat} (hk : k < L.length) (hkj : k < j) {s i : String}
    (h : Carries env.lower M L[k] (env.lower s) i) : readLink env true st s i = .ref (base + k) := by
  have := (hI.index (env.lower s) i (base + k)).2 ⟨k, hk, hkj, rfl, h⟩
  unfold readLink loadLink
  simp [this]

/-- any other link stays -/
theorem Loaded.unknown (hI : Loaded env M L base j st) {s i : String} (h : ∀ p ∈ L, ¬ Carries env.lower M p (env.lower s) i) :
    readLink env true st s i = .link s i := by
  have : Dict.get? st.index (env.lower s, i) = none := by
    cases e : Dict.get? st.index (env.lower s, i) with
    | none => rfl
    | some q =>
      obtain ⟨k, hk, _, _, hc⟩ := (hI.index _ _ _).1 e
      exact absurd hc (h _ (List.getElem_mem hk))
  unfold readLink loadLink
  simp [this]

theorem get?_bounds_image {m' : Mem} {F : Nat → V} {os : List Nat} {o : Nat} {x z : EObj} (h : Image env M F os m' o x z) {b : V}
    (hb : Dict.get? x.fields "_bounds" = some b) : Dict.get? z.fields "_bounds" = some b := by
  obtain ⟨vals, own, us, name, labels, hs, _, _, _, hc, _, hz, hnf, hu⟩ := h
  have hmem : "_bounds" ∈ x.fields.map Prod.fst := List.mem_map.2 ⟨_, Dict.mem_of_get? hb, rfl⟩
  have hno : ∀ c : ECls, "_bounds" ∉ (ownFields c).map Prod.fst := by intro c; cases c <;> decide +kernel
  have hkind : ∀ c : ECls, ∀ a ∈ eargs c, a.attr = "_bounds" → ∃ e, a.kind = .obj boundsTypes e := by
    intro c a ha e
    have key : ∀ c : ECls, ∀ a ∈ eargs c, a.attr = "_bounds" → (match a.kind with | .obj ts e => decide (ts = boundsTypes) | _ => false) = true := by
      intro c; cases c <;> decide +kernel
    have := key c a ha e
    cases hk : a.kind <;> simp [hk] at this
    exact ⟨_, by rw [this]⟩
  rw [hs.fields, List.map_append, List.mem_append, hs.own] at hmem
  rcases hmem with hmem | hmem
  · rw [List.map_fst_zip (by simp [hs.len]), List.mem_map] at hmem
    obtain ⟨a, ha, hattr⟩ := hmem
    have hul : us.length = (eargs x.cls).length := by have := hz.len; rw [hc] at this; exact this
    have h1 : Dict.get? (((eargs x.cls).map EArg.attr).zip vals) "_bounds" = some b := by
      rw [hs.fields, get?_append] at hb
      obtain ⟨v, h1, _⟩ := get?_attr (as := (eargs x.cls).map EArg.attr) (vals := vals) (by simpa using hs.len) "_bounds" (List.mem_map.2 ⟨a, ha, hattr⟩)
      rw [h1] at hb ⊢
      simpa using hb
    have h2 : ∃ i, ∃ h1 : i < (eargs x.cls).length, ∃ h2 : i < vals.length, ∃ h3 : i < us.length, (eargs x.cls)[i].attr = "_bounds" ∧ vals[i] = b ∧
        Dict.get? (((eargs x.cls).map EArg.attr).zip us) "_bounds" = some us[i] := by
      have gen : ∀ (as : List EArg) (vs us : List V), vs.length = as.length → us.length = as.length →
          Dict.get? ((as.map EArg.attr).zip vs) "_bounds" = some b → ∃ i, ∃ h1 : i < as.length, ∃ h2 : i < vs.length, ∃ h3 : i < us.length,
            as[i].attr = "_bounds" ∧ vs[i] = b ∧ Dict.get? ((as.map EArg.attr).zip us) "_bounds" = some us[i] := by
        intro as
        induction as with
        | nil => intro vs us _ _ h; simp [Dict.get?] at h
        | cons a as ih =>
          intro vs us hv hu h
          cases vs with
          | nil => simp at hv
          | cons v vs =>
            cases us with
            | nil => simp at hu
            | cons u us =>
              simp only [List.map_cons, List.zip_cons_cons, Dict.get?] at h ⊢
              by_cases e : a.attr = "_bounds"
              · rw [if_pos e] at h ⊢
                exact ⟨0, by simp, by simp, by simp, e, by simpa using h, rfl⟩
              · rw [if_neg e] at h ⊢
                obtain ⟨i, i1, i2, i3, e1, e2, e3⟩ := ih vs us (by simpa using hv) (by simpa using hu) h
                exact ⟨i + 1, by simp [i1], by simp [i2], by simp [i3], by simpa using e1, by simpa using e2, by simpa using e3⟩
      exact gen _ _ _ hs.len hul h1
    obtain ⟨i, i1, i2, i3, e1, e2, e3⟩ := h2
    rw [hz.fields, hc, get?_append, e3]
    simp only [Option.some_or]
    congr 1
    obtain ⟨e, hk⟩ := hkind x.cls _ (List.getElem_mem i1) e1
    have hcv := hs.conv _ (zip_nth i1 i2)
    simp only [hk, conv, convObj] at hcv
    have hbt : isTyp boundsTypes vals[i] = true := by
      split at hcv
      · cases hcv
      · split at hcv
        · assumption
        · cases hcv
    have hn := map_nth hnf i i3 (by simpa using i2)
    simp only [List.getElem_map] at hn
    rw [tr_bounds env M _ _ _ hbt (hs.ok _ (List.getElem_mem i2))] at hn
    rw [← e2]
    exact bounds_eq env M m' _ _ hbt (hs.ok _ (List.getElem_mem i2)) (hz.ok _ (List.getElem_mem i3)) (hu _ (List.getElem_mem i3)).2 hn
  · exact absurd hmem (hno _)

/-- the images of entities that have been read are in their place -/
theorem Loaded.compat (hI : Loaded env M L base j st) (hS : Source env M f L) {v : V}
    (h : ∀ p, V.ref p ∈ v.subs → ∃ b, ∃ hb : b < L.length, b < j ∧ L[b] = p) : Compat M st.mem (imageOf base L) .link v := by
  refine ⟨?_, fun s i _ => ⟨s, i, rfl⟩⟩
  intro p hp
  obtain ⟨b, hb, hbj, rfl⟩ := h p hp
  right
  refine ⟨base + b, imageOf_get hS.nodup hb, ?_⟩
  intro x hx
  obtain ⟨x', z, hx', hz, him⟩ := hI.image b hb hbj
  rw [hx] at hx'
  cases hx'
  refine ⟨z, hz, ?_, fun b hb => get?_bounds_image him hb⟩
  obtain ⟨_, _, _, _, _, _, _, _, _, hc, _⟩ := him
  exact hc

/-- reading a value whose entities have been read and replaced by links -/
theorem Loaded.value (hI : Loaded env M L base j st) (hS : Source env M f L) {v w : V} (hv : wf v) (htv : noTuple v) (hov : okV env M v)
    (hr : ∀ p, V.ref p ∈ v.subs → ∃ b, ∃ hb : b < L.length, b < j ∧ L[b] = p)
    (hl : ∀ s i, V.link s i ∈ v.subs → ∀ p ∈ L, ¬ Carries env.lower M p (env.lower s) i)
    (hw : Clean env M w) (h : nf w = nf (tr f .link v)) :
    nf (tr .ref (readLink env true st) w) = nf (tr (imageOf base L) .link v) ∧ okV env st.mem (tr .ref (readLink env true st) w) ∧
    okV env st.mem (tr (imageOf base L) .link v) ∧ noTuple (tr (imageOf base L) .link v) ∧ wf (tr (imageOf base L) .link v) ∧
    wf (tr .ref (readLink env true st) w) ∧ noTuple (tr .ref (readLink env true st) w) := by
  have h1 : nf (tr .ref (readLink env true st) w) = nf (tr (imageOf base L) .link v) := by
    apply nf_back hv hw.wf (pointerLike_readLink env st) _ h
    · intro p hp
      obtain ⟨b, hb, hbj, rfl⟩ := hr p hp
      obtain ⟨s, i, e, hc⟩ := hS.link _ (List.getElem_mem hb)
      rw [e, imageOf_get hS.nodup hb]
      simp only [tr]
      exact hI.known hS hb hbj hc
    · intro s i hsi
      exact hI.unknown (hl s i hsi)
    · intro p hp
      obtain ⟨b, hb, hbj, rfl⟩ := hr p hp
      obtain ⟨s, i, e, hc⟩ := hS.link _ (List.getElem_mem hb)
      rw [e]; trivial
  have h2 : okV env st.mem (tr (imageOf base L) .link v) := okV_tr env M st.mem _ _ v hv hov (hI.compat hS hr)
  have h3 : noTuple (tr (imageOf base L) .link v) := noTuple_tr _ _ v hv (by simp [imageOf, noTuple]) (by simp [noTuple])
  have h4 : wf (tr (imageOf base L) .link v) := wf_tr _ _ v hv (by simp [imageOf, wf]) (by simp [wf])
  have hp1 : ∀ s i, wf (readLink env true st s i) := by
    intro s i
    have := pointerLike_readLink env st s i
    revert this
    cases readLink env true st s i <;> simp [pointerLike, wf]
  have hp2 : ∀ s i, noTuple (readLink env true st s i) := by
    intro s i
    have := pointerLike_readLink env st s i
    revert this
    cases readLink env true st s i <;> simp [pointerLike, noTuple]
  exact ⟨h1, okV_lift env M st.mem _ (pointerLike_readLink env st) w hw.wf hw.noTuple hw.noRef hw.ok _ h4 h3 h2 h1, h2, h3, h4,
    wf_tr _ _ w hw.wf (by simp [wf]) (fun s i _ => hp1 s i), noTuple_tr _ _ w hw.wf (by simp [noTuple]) (fun s i _ => hp2 s i)⟩

theorem zip_same {as : List String} {vs us : List V} (hv : vs.length = as.length) (hu : us.length = as.length) {k : String} (hk : k ∈ as) :
    ∃ i, ∃ h1 : i < as.length, ∃ h2 : i < vs.length, ∃ h3 : i < us.length, as[i] = k ∧ Dict.get? (as.zip vs) k = some vs[i] ∧
      Dict.get? (as.zip us) k = some us[i] := by
  induction as generalizing vs us with
  | nil => simp at hk
  | cons a as ih =>
    cases vs with
    | nil => simp at hv
    | cons v vs =>
      cases us with
      | nil => simp at hu
      | cons u us =>
        simp only [List.zip_cons_cons, Dict.get?]
        by_cases e : a = k
        · simp only [if_pos e]
          exact ⟨0, by simp, by simp, by simp, e, rfl, rfl⟩
        · simp only [if_neg e]
          obtain ⟨i, i1, i2, i3, e1, e2, e3⟩ := ih (vs := vs) (us := us) (by simpa using hv) (by simpa using hu)
            (by rcases List.mem_cons.1 hk with h | h
                · exact absurd h.symm e
                · exact h)
          exact ⟨i + 1, by simp [i1], by simp [i2], by simp [i3], by simpa using e1, by simpa using e2, by simpa using e3⟩

theorem pointsBack_iff {x : EObj} {n : String} {o' o : Nat} (hx : M[o']? = some x) :
    pointsBack M n o' o = true ↔ ∃ there, backRef x.cls = some (there, n) ∧ Dict.get? x.fields there = some (.ref o) := by
  unfold pointsBack
  rw [hx]
  simp only
  cases e : backRef x.cls with
  | none => simp
  | some tb =>
    obtain ⟨there, back⟩ := tb
    simp only [Bool.and_eq_true, decide_eq_true_eq, Option.some.injEq, Prod.mk.injEq]
    constructor
    · rintro ⟨rfl, h⟩; exact ⟨there, ⟨rfl, rfl⟩, h⟩
    · rintro ⟨t, ⟨rfl, rfl⟩, h⟩; exact ⟨rfl, h⟩

/-- what points back is an attribute -/
theorem pointsBack_refs (hT : WellTyped env M) {n : String} {o' o : Nat} (h : pointsBack M n o' o = true) :
    ∃ x, M[o']? = some x ∧ ∃ e ∈ asDict M x, V.ref o ∈ e.2.subs := by
  cases hx : M[o']? with
  | none => simp [pointsBack, hx] at h
  | some x =>
    rw [pointsBack_iff hx] at h
    obtain ⟨there, h1, h2⟩ := h
    obtain ⟨vals, own, hs, _⟩ := hT o' x hx
    obtain ⟨a, ha, e1, _⟩ := backRef_arg _ _ _ h1
    obtain ⟨b, v, e2, e3, e4⟩ := get?_arg hs.len own ⟨a, ha, e1⟩
    rw [hs.fields, e4] at h2
    cases h2
    refine ⟨x, rfl, (b.name, .ref o), ?_, self_mem_subs _⟩
    rw [asDict_eq hs M]
    apply List.mem_cons_of_mem
    apply List.mem_cons_of_mem
    apply List.mem_append_left
    rw [List.zip_map_left]
    exact List.mem_map.2 ⟨(b, .ref o), e2, rfl⟩

theorem tr_ref_inv {F : Nat → V} {v : V} {q : Nat} (h : tr F .link v = .ref q) : ∃ p, v = .ref p ∧ F p = .ref q := by
  cases v <;> simp [tr] at h
  · rename_i ks vs
    unfold sortDict at h
    split at h <;> simp [mkDict] at h
  · exact ⟨_, rfl, h⟩

/-- reading one more record -/
theorem load_step (hS : Source env M f L) (hI : Loaded env M L base j st) (hj : j < L.length) {x y : EObj} (hx : M[L[j]]? = some x)
    (hy : Copy env M f x y) (m2 : Mem) :
    ∃ st', dec (loadAndIndex env true) (recordTree m2 y) st = .ok (.ref (base + j), st') ∧ Loaded env M L base (j + 1) st' := by
  obtain ⟨vals, own, ws, name, labels, hs, rfl, hlw, hnf, hclean, hconv, hname, hlabels, hpart⟩ := hy
  have hpl := hS.plain _ (List.getElem_mem hj) x hx
  have hdx := asDict_eq hs M
  have hty : "type" ∉ x.uids.map Prod.fst := noType_uids (hpl ("uids", uidsDict x.uids) (by rw [hdx]; simp)).1
  have hty' : "type" ∉ (sortUids x.uids).map Prod.fst := fun h => hty (((sortUids_perm x.uids).map Prod.fst).mem_iff.1 h)
  have hcl' : clash env.lower ((sortUids x.uids).map Prod.fst) = false := clash_perm env.lower ((sortUids_perm x.uids).map Prod.fst).symm hs.uids
  have hshape := copy_shape (Grows.refl M) hs.uids hlw hclean hconv name labels
  have hd := asDict_eq hshape m2
  rw [copy_part hlw (fun w hw p e => by have := (hclean w hw).noRef; rw [e] at this; simp [noRef] at this)] at hd
  simp only [loaded] at hd
  -- the values
  have hmem : ∀ i (h1 : i < (eargs x.cls).length) (h2 : i < vals.length), ((eargs x.cls)[i].name, vals[i]) ∈ asDict M x := by
    intro i h1 h2
    rw [hdx]
    apply List.mem_cons_of_mem
    apply List.mem_cons_of_mem
    apply List.mem_append_left
    rw [List.zip_map_left]
    exact List.mem_map.2 ⟨((eargs x.cls)[i], vals[i]), zip_nth h1 h2, rfl⟩
  have hlv := hs.len
  have hval : ∀ i (h2 : i < vals.length) (h3 : i < ws.length), _ := fun i h2 h3 =>
    hI.value hS (v := vals[i]) (w := ws[i]) (hpl _ (hmem i (by omega) h2)).1 (hpl _ (hmem i (by omega) h2)).2 (hs.ok _ (List.getElem_mem h2))
      (hS.refs j hj x hx _ (hmem i (by omega) h2)) (hS.foreign _ (List.getElem_mem hj) x hx _ (hmem i (by omega) h2)) (hclean _ (List.getElem_mem h3))
      (by have := map_nth hnf i h3 (by simpa using h2); simpa using this)
  generalize hus : ws.map (tr .ref (readLink env true st)) = us at *
  have hlu : us.length = (eargs x.cls).length := by rw [← hus]; simpa using hlw
  have husi : ∀ i (h3 : i < ws.length) (h4 : i < us.length), us[i] = tr .ref (readLink env true st) ws[i] := by
    intro i h3 h4
    simp only [← hus, List.getElem_map]
  have hunf : us.map nf = (vals.map (tr (imageOf base L) .link)).map nf := by
    apply List.ext_getElem
    · simp; omega
    · intro i i1 i2
      simp only [List.length_map] at i1 i2
      simp only [List.getElem_map]
      rw [husi i (by omega) i1]
      exact (hval i i2 (by omega)).1
  have huok : ∀ u ∈ us, okV env st.mem u ∧ wf u ∧ noTuple u := by
    intro u hu
    obtain ⟨i, hi, rfl⟩ := List.getElem_of_mem hu
    rw [husi i (by omega) hi]
    obtain ⟨_, h1, _, _, _, h2, h3⟩ := hval i (by omega) (by omega)
    exact ⟨h1, h2, h3⟩
  have huconv : ∀ p ∈ (eargs x.cls).zip us, conv env st.mem p.1.kind p.2 = .ok p.2 := by
    intro p hp
    obtain ⟨i, hi, rfl⟩ := List.getElem_of_mem hp
    simp only [List.length_zip] at hi
    simp only [List.getElem_zip]
    rw [husi i (by omega) (by omega)]
    obtain ⟨e1, _, e3, e4, e5, _⟩ := hval i (by omega) (by omega)
    refine conv_lift env M st.mem _ (eargs_kinds _ _ (List.getElem_mem _)).1 _ (pointerLike_readLink env st) ws[i] _ (hclean _ (List.getElem_mem _)) e4 e3 e1
      (hconv _ (zip_nth (by omega) (by omega))) ?_
    exact conv_tr env M st.mem _ (eargs_kinds _ _ (List.getElem_mem _)).1 _ _ vals[i] (hpl _ (hmem i (by omega) (by omega))).1
      (hs.ok _ (List.getElem_mem _)) (hI.compat hS (hS.refs j hj x hx _ (hmem i (by omega) (by omega)))) (hs.conv _ (zip_nth (by omega) (by omega)))
  -- the record
  generalize hpt : (if x.cls = .ingredientRun then [("name", name), ("labels", labels)] else ([] : List (String × V))) = part at *
  have hpn : part.map Prod.fst = if x.cls = .ingredientRun then ["name", "labels"] else [] := by
    rw [← hpt]; split <;> rfl
  have hfst : (("uids", uidsDict (sortUids x.uids)) :: (((eargs x.cls).map EArg.name).zip ws ++ part)).map Prod.fst =
      "uids" :: ((eargs x.cls).map EArg.name ++ if x.cls = .ingredientRun then ["name", "labels"] else []) := by
    rw [List.map_cons, List.map_append, hpn, List.map_fst_zip (by simp [hlw])]
  have hnd : ("uids" :: ((eargs x.cls).map EArg.name ++ if x.cls = .ingredientRun then ["name", "labels"] else [])).Nodup ∧
      "type" ∉ ("uids" :: ((eargs x.cls).map EArg.name ++ if x.cls = .ingredientRun then ["name", "labels"] else [])) ∧
      "self" ∉ ("uids" :: ((eargs x.cls).map EArg.name ++ if x.cls = .ingredientRun then ["name", "labels"] else [])) := by
    cases x.cls <;> decide +kernel
  have hpc : ∀ e ∈ part, Clean env st.mem e.2 ∧ ∀ g : Nat → V, ∀ g', tr g g' e.2 = e.2 := by
    intro e he
    rw [← hpt] at he
    split at he
    · simp only [List.mem_cons, List.not_mem_nil, or_false] at he
      rcases he with rfl | rfl
      · exact nameLike_clean hname
      · exact labelsLike_clean hlabels
    · simp at he
  have hucl : Clean env st.mem (uidsDict (sortUids x.uids)) := wf_uids _ hcl' hty'
  have hall : ∀ e ∈ ("uids", uidsDict (sortUids x.uids)) :: (((eargs x.cls).map EArg.name).zip ws ++ part), wf e.2 ∧ noRef e.2 ∧
      okV env st.mem (tr .ref (readLink env true st) e.2) := by
    intro e he
    rcases List.mem_cons.1 he with rfl | he
    · refine ⟨hucl.wf, hucl.noRef, ?_⟩
      have := hucl.tr.ok
      rw [tr_uids] at this ⊢
      exact this
    · rcases List.mem_append.1 he with he | he
      · have h1 := (List.of_mem_zip (a := e.1) (b := e.2) he).2
        exact ⟨(hclean _ h1).wf, (hclean _ h1).noRef, (huok _ (by rw [← hus]; exact List.mem_map.2 ⟨_, h1, rfl⟩)).1⟩
      · obtain ⟨h1, h2⟩ := hpc e he
        exact ⟨h1.wf, h1.noRef, by rw [h2]; exact h1.ok⟩
  have hdec := dec_record env true st .ref (fun _ => .none) (Equal.typ x.cls) (("uids", uidsDict (sortUids x.uids)) :: (((eargs x.cls).map EArg.name).zip ws ++ part))
    (by rw [hfst]; exact hnd.1) (by rw [hfst]; exact hnd.2.1) (by rw [hfst]; exact hnd.2.2) (fun e he => (hall e he).1) (fun e he => (hall e he).2.1)
    (fun e he => (hall e he).2.2)
  have hnd' : (Dict.keys (onSnd (tr .ref (readLink env true st)) (("uids", uidsDict (sortUids x.uids)) :: (((eargs x.cls).map EArg.name).zip ws ++ part)))).Nodup := by
    unfold Dict.keys
    rw [onSnd_fst, hfst]
    exact hnd.1
  have hget : ∀ k v, (k, v) ∈ ("uids", uidsDict (sortUids x.uids)) :: (((eargs x.cls).map EArg.name).zip ws ++ part) →
      Dict.get? (onSnd (tr .ref (readLink env true st)) (("uids", uidsDict (sortUids x.uids)) :: (((eargs x.cls).map EArg.name).zip ws ++ part))) k =
        some (tr .ref (readLink env true st) v) := by
    intro k v hkv
    apply Dict.get?_of_mem hnd'
    exact List.mem_map.2 ⟨(k, v), hkv, rfl⟩
  -- the entities in the values have been read
  have htop : ∀ i (h1 : i < vals.length) (h2 : i < us.length) q, us[i] = .ref q → ∃ b, ∃ hb : b < L.length, b < j ∧ vals[i] = .ref L[b] ∧ q = base + b := by
    intro i h1 h2 q e
    have hn := map_nth hunf i h2 (by simpa using h1)
    simp only [List.getElem_map, e] at hn
    have : tr (imageOf base L) .link vals[i] = .ref q := nf_pointer trivial hn.symm
    obtain ⟨p, hp, hF⟩ := tr_ref_inv this
    obtain ⟨b, hb, hbj, rfl⟩ := hS.refs j hj x hx _ (hmem i (by omega) h1) p (by simp only [hp]; exact self_mem_subs _)
    rw [imageOf_get hS.nodup hb] at hF
    cases hF
    exact ⟨b, hb, hbj, hp, rfl⟩
  have hfd := fromDictE_eq env st.mem x.cls (onSnd (tr .ref (readLink env true st)) (("uids", uidsDict (sortUids x.uids)) :: (((eargs x.cls).map EArg.name).zip ws ++ part)))
    us us (sortUids (sortUids x.uids)) name labels hlu hlu (by
      intro p hp
      rw [← hus, List.zip_map_right] at hp
      obtain ⟨q, hq, rfl⟩ := List.mem_map.1 hp
      apply hget
      apply List.mem_cons_of_mem
      apply List.mem_append_left
      rw [List.zip_map_left]
      exact List.mem_map.2 ⟨q, hq, rfl⟩) (setAll_fixed env st.mem _ us hlu huconv) (by
      rw [hget "uids" (uidsDict (sortUids x.uids)) (by simp)]
      exact convUids_tr env .ref _ _ hcl') (by
      intro q hq
      obtain ⟨i, hi, e⟩ := List.getElem_of_mem hq
      obtain ⟨b, hb, hbj, _, rfl⟩ := htop i (by omega) hi q e
      rw [hI.len]; omega) (by
      intro hi
      rw [if_pos hi] at hpt
      rw [hget "name" name (by simp [← hpt]), hget "labels" labels (by simp [← hpt])]
      simp only [Option.getD_some]
      rw [(nameLike_clean (env := env) (m := M) hname).2, (labelsLike_clean (env := env) (m := M) hlabels).2]
      exact ⟨rfl, rfl, hlabels⟩)
  generalize hz : loaded x.cls (sortUids (sortUids x.uids)) us name labels = z at *
  have hzc : z.cls = x.cls := by rw [← hz]; rfl
  have hzu : z.uids.Perm x.uids := by rw [← hz]; exact (sortUids_perm _).trans (sortUids_perm _)
  obtain ⟨t1, t2, t3⟩ := typ_entity x.cls
  have hlen := hI.len
  have hll : (linkBack st.mem st.mem.length z).length = st.mem.length := linkBack_length _ _ _
  have hgrow : Grows st.mem (linkBack st.mem st.mem.length z ++ [z]) := (linkBack_grows _ _ _).trans (Grows.append _ _)
  have hlast : (linkBack st.mem st.mem.length z ++ [z])[st.mem.length]? = some z := by
    rw [List.getElem?_append_right (by omega)]
    simp [hll]
  refine ⟨{ mem := linkBack st.mem st.mem.length z ++ [z], index := addIndex env st.mem.length z.uids st.index }, ?_, ?_, ?_, ?_⟩
  · unfold recordTree
    simp only [loaded]
    rw [hd]
    simp only [List.tail_cons]
    rw [hdec, ← hlen]
    simp only [loadAs, if_neg t1, t2, t3, hfd, hlast, Option.map_some, Option.getD_some]
  · rw [List.length_append, hll, hlen]; simp; omega
  · have htake : L.take (j + 1) = L.take j ++ [L[j]] := by rw [List.take_add_one, List.getElem?_eq_getElem hj]; rfl
    intro k hk hkj
    simp only
    by_cases hkj' : k = j
    · subst hkj'
      refine ⟨x, z, hx, by rw [← hlen]; exact hlast, vals, own, us, name, labels, hs, hname, hlabels, by rw [hpart, ← hpt], hzc, by rw [← hz]; rfl, ?_, hunf, fun u hu => (huok u hu).2⟩
      rw [ownAt_empty]
      · have : Shape env st.mem z us (loadedOwn x.cls name labels) := by
          rw [← hz]
          refine ⟨hlu, rfl, ?_, huconv, fun u hu => (huok u hu).1, ?_⟩
          · exact hshape.own
          · exact clash_perm env.lower ((sortUids_perm _).map Prod.fst).symm hcl'
        exact this.grows hgrow
      · intro n p hp
        obtain ⟨k', hk', rfl⟩ := List.getElem_of_mem hp
        simp only [List.length_take] at hk'
        rw [List.getElem_take]
        cases hpb : pointsBack M n L[k'] L[k] with
        | false => rfl
        | true =>
          obtain ⟨x', hx', e, he, hr⟩ := pointsBack_refs hS.typed hpb
          obtain ⟨b, hb, hbk, hbe⟩ := hS.refs k' (by omega) x' hx' e he _ hr
          have := get_inj hS.nodup hb hk hbe
          omega
    · obtain ⟨x0, z0, hx0, hz0, vals0, own0, us0, name0, labels0, a1, a2, a3, a4, a5, a6, a7, a8, a9⟩ := hI.image k hk (by omega)
      have hk1 : base + k < (linkBack st.mem st.mem.length z).length := by omega
      rw [List.getElem?_append_left hk1]
      -- whether the new one points to it
      have hcase : (linkBack st.mem st.mem.length z = st.mem ∧ ∀ n, pointsBack M n L[j] L[k] = false) ∨
          ∃ b back, back ∈ backNames ∧ linkBack st.mem st.mem.length z = setField st.mem (base + b) back
              (if back = "_output_material" then fun _ => .ref st.mem.length else appendTo (.ref st.mem.length)) ∧
            ∀ n, pointsBack M n L[j] L[k] = (decide (back = n) && decide (k = b)) := by
        cases hbr : backRef x.cls with
        | none =>
          left
          refine ⟨by simp [linkBack, hzc, hbr], ?_⟩
          intro n
          simp [pointsBack, hx, hbr]
        | some tb =>
          obtain ⟨there, back⟩ := tb
          obtain ⟨a, ha, e1, _⟩ := backRef_arg _ _ _ hbr
          obtain ⟨i, i1, i2, i3, e2, e3, e4⟩ := zip_same (as := (eargs x.cls).map EArg.attr) (vs := vals) (us := us) (by simpa using hlv) (by simpa using hlu)
            (List.mem_map.2 ⟨a, ha, e1⟩)
          have g1 : Dict.get? x.fields there = some vals[i] := by rw [hs.fields, get?_append, e3]; rfl
          have g2 : Dict.get? z.fields there = some us[i] := by rw [← hz]; simp only [loaded]; rw [get?_append, e4]; rfl
          by_cases hq : ∃ q, us[i] = .ref q
          · obtain ⟨q, hq⟩ := hq
            obtain ⟨b, hb, hbj, hv, rfl⟩ := htop i i2 i3 q hq
            right
            refine ⟨b, back, backRef_names hbr, ?_, ?_⟩
            · simp only [linkBack, hzc, hbr, g2, hq]
            · intro n
              simp only [pointsBack, hx, hbr, g1, hv]
              congr 1
              simp only [Option.some.injEq, V.ref.injEq, decide_eq_decide]
              constructor
              · intro e; exact (get_inj hS.nodup hb hk e).symm
              · rintro rfl; rfl
          · left
            constructor
            · simp only [linkBack, hzc, hbr, g2]
              cases hu : us[i] <;> simp only
              exact absurd ⟨_, hu⟩ hq
            · intro n
              simp only [pointsBack, hx, hbr, g1]
              have : ¬ (some vals[i] = some (V.ref L[k])) := by
                intro e
                cases e' : vals[i] <;> simp [e'] at e
                rename_i p
                subst e
                apply hq
                have hn := map_nth hunf i i3 (by simpa using i2)
                simp only [List.getElem_map, e', tr] at hn
                exact ⟨_, nf_pointer (v := imageOf base L L[k]) trivial hn⟩
              simp [this]
      rw [htake]
      rcases hcase with ⟨e1, e2⟩ | ⟨b, back, hb, e1, e2⟩
      · rw [e1]
        refine ⟨x0, z0, hx0, hz0, vals0, own0, us0, name0, labels0, a1, a2, a3, a4, a5, a6, ?_, a8, a9⟩
        rw [ownAt_other _ _ e2]
        rw [e1] at hgrow
        exact a7.grows hgrow
      · rw [e1] at hgrow ⊢
        rw [setField_at, hz0]
        by_cases hkb : k = b
        · subst hkb
          simp only [Option.map_some, if_true]
          refine ⟨x0, _, hx0, rfl, vals0, own0, us0, name0, labels0, a1, a2, a3, a4, a5, a6, ?_, a8, a9⟩
          have hF : V.ref st.mem.length = imageOf base L L[j] := by rw [imageOf_get hS.nodup hj, hlen]
          rw [← ownAt_point (back := back) name0 labels0 hb (by intro n; rw [e2]; simp), ← hF]
          exact (a7.set hb _).grows hgrow
        · have : ¬ base + k = base + b := by omega
          simp only [Option.map_some, if_neg this]
          refine ⟨x0, z0, hx0, rfl, vals0, own0, us0, name0, labels0, a1, a2, a3, a4, a5, a6, ?_, a8, a9⟩
          rw [ownAt_other _ _ (by intro n; rw [e2]; simp [hkb])]
          exact a7.grows hgrow
  · intro s i q
    simp only
    rw [get?_addIndex]
    have hcar : (∃ scope, (scope, i) ∈ z.uids ∧ env.lower scope = s) ↔ Carries env.lower M L[j] s i := by
      constructor
      · rintro ⟨sc, h1, h2⟩
        exact ⟨x, hx, sc, hzu.mem_iff.1 h1, h2⟩
      · rintro ⟨x', hx', sc, h1, h2⟩
        rw [hx] at hx'
        cases hx'
        exact ⟨sc, hzu.mem_iff.2 h1, h2⟩
    by_cases hc : Carries env.lower M L[j] s i
    · rw [if_pos (hcar.2 hc)]
      constructor
      · intro e
        cases e
        exact ⟨j, hj, by omega, hlen, hc⟩
      · rintro ⟨k, hk, hkj, rfl, hck⟩
        have := get_inj hS.nodup hk hj (hS.apart _ (List.getElem_mem hk) _ (List.getElem_mem hj) s i hck hc)
        rw [hlen, this]
    · rw [if_neg (fun h => hc (hcar.1 h)), hI.index]
      constructor
      · rintro ⟨k, hk, hkj, h⟩
        exact ⟨k, hk, by omega, h⟩
      · rintro ⟨k, hk, hkj, h1, h2⟩
        refine ⟨k, hk, ?_, h1, h2⟩
        have : k ≠ j := by rintro rfl; exact hc h2
        omega

end

end Verif.Substitute
