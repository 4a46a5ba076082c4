import Verif.Props.Strip
/-!
# Lemmas on entities: their attributes, `as_dict` and `from_dict`
-/

set_option linter.unusedSimpArgs false
set_option linter.unusedVariables false
set_option linter.unusedSectionVars false

namespace Verif.Json
open Verif.Py Verif.Value Verif.Schema

/-! ## Growing memory -/

/-- every entity stays, keeps its class and its bounds -/
def Grows (m m' : Mem) : Prop := ∀ (o : Nat) (x : EObj), m[o]? = some x →
  ∃ x', m'[o]? = some x' ∧ x'.cls = x.cls ∧ ∀ b, Dict.get? x.fields "_bounds" = some b → Dict.get? x'.fields "_bounds" = some b

theorem Grows.refl (m : Mem) : Grows m m := fun o x h => ⟨x, h, rfl, fun _ hb => hb⟩

theorem Grows.trans {m1 m2 m3 : Mem} (h : Grows m1 m2) (h' : Grows m2 m3) : Grows m1 m3 := by
  intro o x hx
  obtain ⟨y, hy, e1, e2⟩ := h o x hx
  obtain ⟨z, hz, e3, e4⟩ := h' o y hy
  exact ⟨z, hz, e3.trans e1, fun b hb => e4 b (e2 b hb)⟩

theorem Grows.append (m l : Mem) : Grows m (m ++ l) := by
  intro o x h
  have := (List.getElem?_eq_some_iff.1 h).1
  exact ⟨x, by rw [List.getElem?_append_left this]; exact h, rfl, fun _ hb => hb⟩

theorem isCls_grows {m m' : Mem} (hg : Grows m m') {cs : List ECls} {v : V} (h : isCls m cs v = true) : isCls m' cs v = true := by
  cases v <;> simp [isCls] at h
  rename_i o
  cases hx : m[o]? with
  | none => simp [hx] at h
  | some x =>
    simp [hx] at h
    obtain ⟨x', hx', e, _⟩ := hg o x hx
    simp [isCls, hx', e, h]

theorem allows_grows {env : Env} {m m' : Mem} (hg : Grows m m') {a b : V} (h : allows env m a b = true) : allows env m' a b = true := by
  cases a <;> simp [allows] at h ⊢
  rename_i o
  cases hx : m[o]? with
  | none => simp [hx] at h
  | some x =>
    simp [hx] at h
    obtain ⟨x', hx', _, e⟩ := hg o x hx
    cases hb : Dict.get? x.fields "_bounds" with
    | none => simp [hb] at h
    | some bt => simp [hb] at h; simp [hx', e bt hb, h]

theorem pairOk_grows {env : Env} {m m' : Mem} (hg : Grows m m') {p : V} (h : PairOk env m p) : PairOk env m' p := by
  obtain ⟨a, b, rfl, ha, hb⟩ := h
  exact ⟨a, b, rfl, ha.imp_right (isCls_grows hg), hb.imp_right (fun h => ⟨h.1, allows_grows hg h.2⟩)⟩

/-- what a setter stores as it is, it stores as it is later -/
theorem conv_grows {env : Env} {m m' : Mem} (hg : Grows m m') {k : Kind} (hr : rangeOk k) {v : V} (h : conv env m k v = .ok v) :
    conv env m' k v = .ok v := by
  cases k with
  | target cs =>
    simp only [conv, convTarget] at h ⊢
    split at h
    · rename_i hc
      rw [if_pos (hc.imp_right (fun h => h.imp_right (isCls_grows hg)))]
    · cases h
  | ranges c =>
    obtain ⟨l, rfl, hl⟩ := convRanges_out env m c hr v v h
    exact convRanges_self env m' c l (fun p hp => pairOk_grows hg (hl p hp))
  | _ => exact h

mutual
theorem okV_grows {env : Env} {m m' : Mem} (hg : Grows m m') (v : V) (h : okV env m v) : okV env m' v := by
  cases v with
  | list l => simp only [okV] at h ⊢; exact okVs_grows hg l h
  | tuple l => simp only [okV] at h ⊢; exact okVs_grows hg l h
  | dict ks vs => simp only [okV] at h ⊢; exact okVs_grows hg vs h
  | obj t ns vs =>
    simp only [okV] at h ⊢
    obtain ⟨⟨c, hc, hns, hl, hcv, ho⟩, h⟩ := h
    refine ⟨⟨c, hc, hns, hl, fun p hp => ?_, ho⟩, okVs_grows hg vs h⟩
    exact conv_grows hg (table_kinds t c hc _ (List.of_mem_zip hp).1).1 (hcv p hp)
  | _ => simp [okV]
termination_by structural v
theorem okVs_grows {env : Env} {m m' : Mem} (hg : Grows m m') (l : List V) (h : okVs env m l) : okVs env m' l := by
  cases l with
  | nil => simp [okVs]
  | cons v vs => simp only [okVs] at h ⊢; exact ⟨okV_grows hg v h.1, okVs_grows hg vs h.2⟩
termination_by structural l
end

theorem Clean.grows {env : Env} {m m' : Mem} (hg : Grows m m') {v : V} (h : Clean env m v) : Clean env m' v :=
  ⟨h.wf, okV_grows hg v h.ok, h.noTuple, h.noRef⟩

/-! ## The attributes of an entity -/

theorem eargs_kinds (c : ECls) : ∀ a ∈ eargs c, rangeOk a.kind ∧ kindOk a.kind := by
  cases c <;> simp [eargs, attributeTemplateArgs, templateArgs, objectArgs, propertyRanges, conditionRanges, parameterRanges, pointer,
    quantityArgs, parametersArg, conditionsArg, rangeOk, kindOk, attributeTemplates] <;> simp [origins, sampleTypes]

theorem eargs_names (c : ECls) : (((eargs c).map EArg.name)).Nodup ∧ "type" ∉ (eargs c).map EArg.name ∧ "self" ∉ (eargs c).map EArg.name ∧
    "uids" ∉ (eargs c).map EArg.name := by
  cases c <;> decide +kernel

theorem eargs_ingredient : "name" ∉ (eargs .ingredientRun).map EArg.name ∧ "labels" ∉ (eargs .ingredientRun).map EArg.name := by
  decide +kernel

theorem eargs_attr (c : ECls) : ∀ a ∈ eargs c, a.attr ∉ skip c ∧ Equal.lstrip a.attr = a.name ∧
    (c = .ingredientRun → a.attr ≠ "_name" ∧ a.attr ≠ "_labels") := by
  have key : ∀ c : ECls, ∀ a ∈ eargs c, a.attr ∉ skip c ∧ Equal.lstrip a.attr = a.name ∧
      (c ≠ .ingredientRun ∨ a.attr ≠ "_name" ∧ a.attr ≠ "_labels") := by
    intro c; cases c <;> decide +kernel
  intro a ha
  obtain ⟨h1, h2, h3⟩ := key c a ha
  exact ⟨h1, h2, fun e => h3.resolve_left (fun h => h e)⟩

theorem ownFields_skip (c : ECls) : c ≠ .ingredientRun → ∀ n ∈ (ownFields c).map Prod.fst, n ∈ skip c := by
  cases c <;> decide +kernel

theorem ownFields_ingredient : (ownFields .ingredientRun).map Prod.fst = ["_name", "_labels"] ∧ skip .ingredientRun = [] := by
  decide +kernel

/-- The attributes of an entity: `vals` those that are arguments of the constructor, each as its setter stores it, and `own` the
others. -/
structure Shape (env : Env) (m : Mem) (x : EObj) (vals : List V) (own : List (String × V)) : Prop where
  len : vals.length = (eargs x.cls).length
  fields : x.fields = ((eargs x.cls).map EArg.attr).zip vals ++ own
  own : own.map Prod.fst = (ownFields x.cls).map Prod.fst
  conv : ∀ p ∈ (eargs x.cls).zip vals, conv env m p.1.kind p.2 = .ok p.2
  ok : ∀ v ∈ vals, okV env m v
  uids : clash env.lower (x.uids.map Prod.fst) = false

theorem Shape.grows {env : Env} {m m' : Mem} (hg : Grows m m') {x : EObj} {vals : List V} {own : List (String × V)} (h : Shape env m x vals own) :
    Shape env m' x vals own :=
  ⟨h.len, h.fields, h.own, fun p hp => conv_grows hg (eargs_kinds _ _ (List.of_mem_zip hp).1).1 (h.conv p hp),
    fun v hv => okV_grows hg v (h.ok v hv), h.uids⟩

/-- the name and labels of an ingredient run, as `as_dict` shows them -/
def ingredientPart (m : Mem) (x : EObj) (own : List (String × V)) : List (String × V) :=
  if x.cls = .ingredientRun then own.map (fun f => (Equal.lstrip f.1, getattr m x f)) else []

theorem asDict_eq {env : Env} {m : Mem} {x : EObj} {vals : List V} {own : List (String × V)} (h : Shape env m x vals own) (m' : Mem) :
    asDict m' x = ("type", .str (Equal.typ x.cls)) :: ("uids", uidsDict x.uids) ::
      (((eargs x.cls).map EArg.name).zip vals ++ ingredientPart m' x own) := by
  unfold asDict
  congr 2
  rw [h.fields, List.filter_append, List.map_append]
  congr 1
  · have hlen := h.len
    have h1 : ∀ (as : List EArg) (vs : List V), (∀ a ∈ as, a ∈ eargs x.cls) → as.length = vs.length →
        ((((as.map EArg.attr).zip vs).filter (fun f => decide (f.1 ∉ skip x.cls))).map (fun f => (Equal.lstrip f.1, getattr m' x f))) =
          (as.map EArg.name).zip vs := by
      intro as
      induction as with
      | nil => intro vs _ _; rfl
      | cons a as ih =>
        intro vs hm hl
        cases vs with
        | nil => simp at hl
        | cons v vs =>
          obtain ⟨a1, a2, a3⟩ := eargs_attr x.cls a (hm a (by simp))
          have hg : getattr m' x (a.attr, v) = v := by
            unfold getattr
            rw [if_neg]
            rintro ⟨e, e'⟩
            obtain ⟨n1, n2⟩ := a3 e
            exact e'.elim n1 n2
          simp only [List.map_cons, List.zip_cons_cons]
          rw [List.filter_cons_of_pos (by simpa using a1), List.map_cons, ih vs (fun b hb => hm b (by simp [hb])) (by simpa using hl)]
          simp only [a2, hg]
    exact h1 _ _ (fun a ha => ha) hlen.symm
  · unfold ingredientPart
    split
    · rename_i e
      congr 1
      rw [List.filter_eq_self]
      intro f hf
      have := ownFields_ingredient.2
      rw [← e] at this
      simp [this]
    · rename_i e
      have : own.filter (fun f => decide (f.1 ∉ skip x.cls)) = [] := by
        rw [List.filter_eq_nil_iff]
        intro f hf
        have : f.1 ∈ own.map Prod.fst := List.mem_map.2 ⟨f, hf, rfl⟩
        rw [h.own] at this
        simpa using ownFields_skip x.cls e f.1 this
      rw [this]
      rfl

/-! ## Ids -/

theorem clash_iff (lower : String → String) (l : List String) : clash lower l = false ↔ (l.map lower).Nodup := by
  induction l with
  | nil => simp [clash]
  | cons s ss ih =>
    simp only [clash, Bool.or_eq_false_iff, ih, List.map_cons, List.nodup_cons, List.any_eq_false, decide_eq_true_eq, List.mem_map, not_exists,
      not_and]
    constructor
    · rintro ⟨h1, h2⟩
      exact ⟨fun x hx e => h1 x hx e.symm, h2⟩
    · rintro ⟨h1, h2⟩
      exact ⟨fun x hx e => h1 x hx e.symm, h2⟩

theorem clash_perm (lower : String → String) {l l' : List String} (h : l.Perm l') (hc : clash lower l = false) : clash lower l' = false := by
  rw [clash_iff] at hc ⊢
  exact (h.map lower).nodup_iff.1 hc

/-- pairs of strings as fields -/
def asFields (us : List (String × String)) : List (String × V) := us.map (fun p => (p.1, .str p.2))

theorem uidsDict_eq (us : List (String × String)) : uidsDict us = mkDict (asFields us) := by
  simp [uidsDict, mkDict, asFields, Function.comp_def]

/-- fields of strings as pairs -/
def asPairs (fs : List (String × V)) : List (String × String) := fs.map (fun f => (f.1, match f.2 with | .str s => s | _ => ""))

theorem asPairs_asFields (us : List (String × String)) : asPairs (asFields us) = us := by
  simp [asPairs, asFields, Function.comp_def]

theorem stringPairs_mkDict (fs : List (String × V)) (h : ∀ f ∈ fs, isStr f.2 = true) :
    stringPairs (fs.map (fun f => V.str f.1)) (fs.map Prod.snd) = some (asPairs fs) := by
  induction fs with
  | nil => rfl
  | cons f fs ih =>
    obtain ⟨k, v⟩ := f
    have hv := h (k, v) (by simp)
    cases v <;> simp [isStr] at hv
    simp only [List.map_cons, stringPairs, ih (fun f hf => h f (by simp [hf]))]
    rfl

/-- the ids in the order in which JSON writes them -/
def sortUids (us : List (String × String)) : List (String × String) := asPairs (sortFields (asFields us))

theorem sortUids_perm (us : List (String × String)) : (sortUids us).Perm us := by
  have := (sortFields_perm (asFields us)).map (fun f => (f.1, match f.2 with | .str s => s | _ => ""))
  have e := asPairs_asFields us
  unfold asPairs at e
  rw [e] at this
  exact this

theorem tr_uids (f : Nat → V) (g : String → String → V) (us : List (String × String)) : tr f g (uidsDict us) = mkDict (sortFields (asFields us)) := by
  rw [uidsDict_eq]
  have h : strings ((asFields us).map (fun f => V.str f.1)) = some ((asFields us).map Prod.fst) := mkDict_keys _
  simp only [mkDict, tr, sortDict, h]
  have e : trs f g ((asFields us).map Prod.snd) = (asFields us).map Prod.snd := by
    apply trs_scalar
    intro v hv
    simp [asFields] at hv
    obtain ⟨a, b, _, rfl⟩ := hv
    rfl
  rw [e, zip_fst_snd]

theorem convUids_tr (env : Env) (f : Nat → V) (g : String → String → V) (us : List (String × String))
    (hc : clash env.lower (us.map Prod.fst) = false) : convUids env (tr f g (uidsDict us)) = .ok (sortUids us) := by
  have hs : ∀ f ∈ sortFields (asFields us), isStr f.2 = true := by
    intro f hf
    have := (sortFields_perm _).mem_iff.1 hf
    simp [asFields] at this
    obtain ⟨a, b, _, rfl⟩ := this
    rfl
  rw [tr_uids]
  simp only [mkDict, convUids, stringPairs_mkDict _ hs]
  have : clash env.lower ((asPairs (sortFields (asFields us))).map Prod.fst) = false :=
    clash_perm env.lower ((sortUids_perm us).map Prod.fst).symm hc
  rw [this]
  rfl

theorem uids_nodup {lower : String → String} {us : List (String × String)} (hc : clash lower (us.map Prod.fst) = false) :
    (us.map Prod.fst).Nodup := by
  rw [clash_iff] at hc
  have := hc
  rw [List.nodup_iff_pairwise_ne, List.pairwise_map] at this
  rw [List.nodup_iff_pairwise_ne]
  exact this.imp (fun h e => h (by rw [e]))

/-! ## Constructing an entity -/

/-- the attributes a loaded entity has besides its arguments -/
def loadedOwn (c : ECls) (name labels : V) : List (String × V) :=
  if c = .ingredientRun then [("_name", name), ("_labels", labels)] else ownFields c

/-- a loaded entity -/
def loaded (c : ECls) (uids : List (String × String)) (vals : List V) (name labels : V) : EObj :=
  { cls := c, uids := uids, fields := ((eargs c).map EArg.attr).zip vals ++ loadedOwn c name labels }

theorem setField_last (m : Mem) (x : EObj) (a : String) (f : V → V) :
    setField (m ++ [x]) m.length a f = m ++ [{ x with fields := x.fields.map (fun g => if g.1 = a then (g.1, f g.2) else g) }] := by
  unfold setField
  simp

theorem setField_before (m : Mem) (x : EObj) (p : Nat) (hp : p < m.length) (a : String) (f : V → V) :
    setField (m ++ [x]) p a f = setField m p a f ++ [x] := by
  unfold setField
  rw [List.getElem?_append_left hp]
  cases h : m[p]? with
  | none => rfl
  | some y => simp only; rw [List.set_append_left _ _ hp]

/-- the new entity makes itself known to an older one -/
theorem linkBack_append (m : Mem) (x : EObj) (h : ∀ there back, backRef x.cls = some (there, back) → ∀ p, Dict.get? x.fields there = some (.ref p) → p < m.length) :
    linkBack (m ++ [x]) m.length x = linkBack m m.length x ++ [x] := by
  unfold linkBack
  split
  · rename_i there back e
    split
    · rename_i p hp
      exact setField_before m x p (h there back e p hp) _ _
    · rfl
  · rfl

theorem linkBack_fields (m : Mem) (o : Nat) (x y : EObj) (hc : x.cls = y.cls)
    (h : ∀ there back, backRef x.cls = some (there, back) → Dict.get? x.fields there = Dict.get? y.fields there) : linkBack m o x = linkBack m o y := by
  unfold linkBack
  rw [← hc]
  cases e : backRef x.cls with
  | none => rfl
  | some p => obtain ⟨there, back⟩ := p; simp only [h there back e]

theorem backRef_arg (c : ECls) (there back : String) (h : backRef c = some (there, back)) :
    ∃ a ∈ eargs c, a.attr = there ∧ ∃ cs, a.kind = .target cs := by
  have key : ∀ c : ECls, ∀ e ∈ (backRef c).toList, ((eargs c).any (fun a => decide (a.attr = e.1) && match a.kind with | .target _ => true | _ => false)) = true := by
    intro c; cases c <;> decide +kernel
  have := key c (there, back) (by rw [h]; simp)
  rw [List.any_eq_true] at this
  obtain ⟨a, ha, hb⟩ := this
  simp only [Bool.and_eq_true, decide_eq_true_eq] at hb
  refine ⟨a, ha, hb.1, ?_⟩
  cases e : a.kind <;> simp [e] at hb
  exact ⟨_, rfl⟩

theorem get?_append (l l' : List (String × V)) (k : String) : Dict.get? (l ++ l') k = (Dict.get? l k).or (Dict.get? l' k) := by
  induction l with
  | nil => simp [Dict.get?_nil]
  | cons e l ih =>
    simp only [List.cons_append, Dict.get?]
    split
    · simp
    · exact ih

theorem get?_attr {as : List String} {vals : List V} (hl : vals.length = as.length) (k : String) (hk : k ∈ as) :
    ∃ v, Dict.get? (as.zip vals) k = some v ∧ v ∈ vals := by
  induction as generalizing vals with
  | nil => simp at hk
  | cons a as ih =>
    cases vals with
    | nil => simp at hl
    | cons v vals =>
      simp only [List.zip_cons_cons, Dict.get?]
      split
      · exact ⟨v, rfl, by simp⟩
      · rename_i hne
        rcases List.mem_cons.1 hk with e | hk
        · exact absurd e.symm hne
        · obtain ⟨w, h1, h2⟩ := ih (by simpa using hl) hk
          exact ⟨w, h1, by simp [h2]⟩

/-- the first attributes decide -/
theorem get?_args {c : ECls} {vals : List V} (hl : vals.length = (eargs c).length) {own own' : List (String × V)} {k : String}
    (hk : ∃ a ∈ eargs c, a.attr = k) :
    ∃ v ∈ vals, Dict.get? (((eargs c).map EArg.attr).zip vals ++ own) k = some v ∧ Dict.get? (((eargs c).map EArg.attr).zip vals ++ own') k = some v := by
  obtain ⟨a, ha, rfl⟩ := hk
  obtain ⟨v, h1, h2⟩ := get?_attr (as := (eargs c).map EArg.attr) (by simpa using hl) a.attr (List.mem_map.2 ⟨a, ha, rfl⟩)
  refine ⟨v, h2, ?_, ?_⟩ <;> rw [get?_append, h1] <;> rfl

theorem map_set_other (pre : List (String × V)) (k : String) (f : V → V) (h : k ∉ pre.map Prod.fst) :
    pre.map (fun g => if g.1 = k then (g.1, f g.2) else g) = pre := by
  induction pre with
  | nil => rfl
  | cons g pre ih =>
    simp only [List.map_cons, List.mem_cons, not_or] at h
    rw [List.map_cons, if_neg (fun e => h.1 e.symm), ih h.2]

theorem ingredientNames_eq (d : List (String × V)) (M : Mem) (c : ECls) (uids : List (String × String)) (pre : List (String × V)) (name labels : V)
    (h1 : "_name" ∉ pre.map Prod.fst) (h2 : "_labels" ∉ pre.map Prod.fst)
    (n1 : (Dict.get? d "name").getD .none = name) (n2 : (Dict.get? d "labels").getD .none = labels)
    (n3 : labels = .none ∨ ∃ l, labels = .list l ∧ ∀ v ∈ l, isStr v = true) :
    ingredientNames d (M ++ [{ cls := c, uids := uids, fields := pre ++ [("_name", .none), ("_labels", .none)] }]) M.length =
      .ok (M ++ [{ cls := c, uids := uids, fields := pre ++ [("_name", name), ("_labels", labels)] }]) := by
  have s1 : ∀ v : V, setField (M ++ [{ cls := c, uids := uids, fields := pre ++ [("_name", .none), ("_labels", .none)] }]) M.length "_name" (fun _ => v) =
      M ++ [{ cls := c, uids := uids, fields := pre ++ [("_name", v), ("_labels", .none)] }] := by
    intro v
    rw [setField_last]
    simp only [List.map_append, map_set_other pre _ (fun _ => v) h1]
    simp
  have s2 : ∀ v w : V, setField (M ++ [{ cls := c, uids := uids, fields := pre ++ [("_name", v), ("_labels", .none)] }]) M.length "_labels" (fun _ => w) =
      M ++ [{ cls := c, uids := uids, fields := pre ++ [("_name", v), ("_labels", w)] }] := by
    intro v w
    rw [setField_last]
    simp only [List.map_append, map_set_other pre _ (fun _ => w) h2]
    simp
  have e : ∀ l, (∀ v ∈ l, isStr v = true) → convList isStr (.list l) = .ok (.list l) := by
    intro l hl
    unfold convList
    have e : members (.list l) = l := rfl
    rw [e, if_pos (List.all_eq_true.2 hl)]
  unfold ingredientNames
  rw [n1, n2]
  clear n1 n2
  rcases n3 with rfl | ⟨l, rfl, hl⟩
  · cases name <;> first | rfl | exact congrArg Except.ok (s1 _)
  · cases name <;> simp only [e l hl] <;> first | rw [s2] | rw [s1, s2]

/-- `from_dict`, when all arguments are accepted -/
theorem fromDictE_eq (env : Env) (m : Mem) (c : ECls) (d : List (String × V)) (us ws : List V) (uids : List (String × String)) (name labels : V)
    (hlu : us.length = (eargs c).length) (hlw : ws.length = (eargs c).length)
    (hd : ∀ p ∈ (eargs c).zip us, Dict.get? d p.1.name = some p.2)
    (hs : setAll env m (((eargs c).zip us).map (fun p => (p.1.kind, p.2))) = .ok ws)
    (hu : convUids env ((Dict.get? d "uids").getD .none) = .ok uids) (hin : ∀ p, V.ref p ∈ ws → p < m.length)
    (hn : c = .ingredientRun → (Dict.get? d "name").getD .none = name ∧ (Dict.get? d "labels").getD .none = labels ∧
      (labels = .none ∨ ∃ l, labels = .list l ∧ ∀ v ∈ l, isStr v = true)) :
    fromDictE env m c d = .ok (m.length, linkBack m m.length (loaded c uids ws name labels) ++ [loaded c uids ws name labels]) := by
  have hb : bindArgs d ((eargs c).map EArg.arg) = .ok (((eargs c).zip us).map (fun p => (p.1.kind, p.2))) := by
    have := bind_of d ((eargs c).map EArg.arg) us (by simpa using hlu.symm) (by
      intro p hp
      rw [List.zip_map_left] at hp
      obtain ⟨q, hq, rfl⟩ := List.mem_map.1 hp
      exact hd q hq)
    rw [this, List.zip_map_left, List.map_map]
    rfl
  have hx : newEntity env m c d = .ok { cls := c, uids := uids, fields := ((eargs c).map EArg.attr).zip ws ++ ownFields c } := by
    unfold newEntity
    simp only [hb, hs, hu]
  have back : ∀ own there back, backRef c = some (there, back) → ∀ p,
      Dict.get? (((eargs c).map EArg.attr).zip ws ++ own) there = some (.ref p) → p < m.length := by
    intro own there back hbk p hp
    obtain ⟨a, ha, e, _⟩ := backRef_arg c there back hbk
    obtain ⟨v, hv, h1, _⟩ := get?_args (own := own) (own' := own) hlw ⟨a, ha, e⟩
    rw [h1] at hp
    cases hp
    exact hin p hv
  have hcon : constructE env m c d = .ok (m.length, linkBack m m.length { cls := c, uids := uids, fields := ((eargs c).map EArg.attr).zip ws ++ ownFields c } ++
      [{ cls := c, uids := uids, fields := ((eargs c).map EArg.attr).zip ws ++ ownFields c }]) := by
    unfold constructE
    rw [hx]
    simp only
    rw [linkBack_append]
    exact fun there bk h p hp => back _ there bk h p hp
  unfold fromDictE
  rw [hcon]
  simp only
  split
  · rename_i hc
    obtain ⟨n1, n2, n3⟩ := hn hc
    have hlb : linkBack m m.length ({ cls := c, uids := uids, fields := ((eargs c).map EArg.attr).zip ws ++ ownFields c } : EObj) =
        linkBack m m.length (loaded c uids ws name labels) := by
      refine linkBack_fields m m.length _ (loaded c uids ws name labels) rfl ?_
      intro there bk hbk
      obtain ⟨a, ha, e, _⟩ := backRef_arg c there bk hbk
      obtain ⟨v, hv, h1, h2⟩ := get?_args (own := ownFields c) (own' := loadedOwn c name labels) hlw ⟨a, ha, e⟩
      unfold loaded
      simp only [h1, h2]
    have hpre : (((eargs c).map EArg.attr).zip ws).map Prod.fst = (eargs c).map EArg.attr := List.map_fst_zip (by simp [hlw])
    have hne : ∀ k, (∀ a ∈ eargs c, a.attr ≠ k) → k ∉ (((eargs c).map EArg.attr).zip ws).map Prod.fst := by
      intro k h
      rw [hpre]
      intro hk
      obtain ⟨a, ha, e⟩ := List.mem_map.1 hk
      exact h a ha e
    have hown : ownFields c = [("_name", .none), ("_labels", .none)] := by rw [hc]; rfl
    rw [hlb, hown]
    have hlen : (linkBack m m.length (loaded c uids ws name labels)).length = m.length := linkBack_length _ _ _
    have := ingredientNames_eq d (linkBack m m.length (loaded c uids ws name labels)) c uids (((eargs c).map EArg.attr).zip ws) name labels
      (hne _ (fun a ha => ((eargs_attr c a ha).2.2 hc).1)) (hne _ (fun a ha => ((eargs_attr c a ha).2.2 hc).2)) n1 n2 n3
    rw [hlen] at this
    rw [this]
    simp only
    have e2 : loaded c uids ws name labels = { cls := c, uids := uids, fields := ((eargs c).map EArg.attr).zip ws ++ [("_name", name), ("_labels", labels)] } := by
      unfold loaded loadedOwn; rw [if_pos hc]
    rw [← e2]
  · rename_i hc
    unfold loaded loadedOwn
    rw [if_neg hc]

/-! ## Well-typed memory -/

/-- the value of an attribute that is an argument -/
theorem get?_arg {as : List EArg} {vals : List V} (hl : vals.length = as.length) (own : List (String × V)) {k : String}
    (hk : ∃ a ∈ as, a.attr = k) :
    ∃ a v, (a, v) ∈ as.zip vals ∧ a.attr = k ∧ Dict.get? ((as.map EArg.attr).zip vals ++ own) k = some v := by
  induction as generalizing vals with
  | nil => simp at hk
  | cons a as ih =>
    cases vals with
    | nil => simp at hl
    | cons v vals =>
      simp only [List.map_cons, List.zip_cons_cons, List.cons_append, Dict.get?]
      split
      · rename_i e
        exact ⟨a, v, by simp, e, rfl⟩
      · rename_i hne
        obtain ⟨b, hb, e⟩ := hk
        rcases List.mem_cons.1 hb with rfl | hb
        · exact absurd e hne
        · obtain ⟨a', w, h1, h2, h3⟩ := ih (by simpa using hl) ⟨b, hb, e⟩
          exact ⟨a', w, by simp [h1], h2, h3⟩

/-- a name or None -/
def nameLike (v : V) : Prop := v = .none ∨ isStr v = true
/-- a list of strings or None -/
def labelsLike (v : V) : Prop := v = .none ∨ ∃ l, v = .list l ∧ ∀ w ∈ l, isStr w = true

/-- Every attribute of every entity holds what its setter would store. -/
def WellTyped (env : Env) (m : Mem) : Prop := ∀ (o : Nat) (x : EObj), m[o]? = some x → ∃ vals own, Shape env m x vals own ∧
  (x.cls = .ingredientRun → ∃ name labels, own = [("_name", name), ("_labels", labels)] ∧ nameLike name ∧ labelsLike labels)

theorem ingredientPart_eq {env : Env} {m : Mem} (h : WellTyped env m) {x : EObj} {vals : List V} {own : List (String × V)} (hx : Shape env m x vals own)
    (hi : x.cls = .ingredientRun) (hown : ∃ name labels, own = [("_name", name), ("_labels", labels)] ∧ nameLike name ∧ labelsLike labels) :
    ∃ name labels, ingredientPart m x own = [("name", name), ("labels", labels)] ∧ nameLike name ∧ labelsLike labels := by
  obtain ⟨nm, lb, rfl, h1, h2⟩ := hown
  have key1 : nameLike (getattr m x ("_name", nm)) ∧ labelsLike (getattr m x ("_labels", lb)) := by
    unfold getattr
    rw [if_pos ⟨hi, .inl rfl⟩, if_pos ⟨hi, .inr rfl⟩]
    cases hs : Dict.get? x.fields "_spec" with
    | none => exact ⟨h1, h2⟩
    | some v =>
      cases v <;> try exact ⟨h1, h2⟩
      rename_i p
      simp only
      cases hp : m[p]? with
      | none => exact ⟨h1, h2⟩
      | some y =>
        simp only
        split
        · rename_i hy
          obtain ⟨vals', own', hsh, _⟩ := h p y hp
          have hk : ∀ a ∈ eargs .ingredientSpec, (a.attr = "_name" → a.kind = .str) ∧ (a.attr = "_labels" → a.kind = .strList) := by
            decide +kernel
          have ha1 : ∃ a ∈ eargs .ingredientSpec, a.attr = "_name" := by decide +kernel
          have ha2 : ∃ a ∈ eargs .ingredientSpec, a.attr = "_labels" := by decide +kernel
          rw [← hy] at hk ha1 ha2
          obtain ⟨a, v, e1, e2, e3⟩ := get?_arg hsh.len own' ha1
          obtain ⟨b, w, e4, e5, e6⟩ := get?_arg hsh.len own' ha2
          rw [hsh.fields, e3, e6]
          have c1 := hsh.conv _ e1
          have c2 := hsh.conv _ e4
          rw [(hk a (List.of_mem_zip e1).1).1 e2] at c1
          rw [(hk b (List.of_mem_zip e4).1).2 e5] at c2
          constructor
          · simp only [conv] at c1
            cases v <;> simp [convStr] at c1
            exact .inr rfl
          · simp only [conv, convList] at c2
            split at c2
            · rename_i hall
              injection c2 with c2
              exact .inr ⟨_, c2.symm, List.all_eq_true.1 hall⟩
            · cases c2
        · exact ⟨h1, h2⟩
  refine ⟨_, _, ?_, key1.1, key1.2⟩
  unfold ingredientPart
  rw [if_pos hi]
  have e1 : Equal.lstrip "_name" = "name" := by decide +kernel
  have e2 : Equal.lstrip "_labels" = "labels" := by decide +kernel
  simp [e1, e2]

end Verif.Json
