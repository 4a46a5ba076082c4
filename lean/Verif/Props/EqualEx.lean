import Verif.Props.EqualMono
/-!
# C33, C34: cases, and where the code disagrees with the properties
-/
set_option linter.unusedSimpArgs false
set_option linter.unusedSectionVars false
set_option linter.unusedVariables false

namespace Verif.Equal
open Verif.Py Verif.Value

/-! ## Graphs given as lists -/

/-- the uids of the objects in a list -/
def uidsIn (m : List EObj) (o : Nat) : List (String × String) := match m[o]? with | some x => x.uids | none => []
/-- what is compared of the objects in a list -/
def dictIn (m : List EObj) (o : Nat) : List (String × V) := match m[o]? with | some x => dictForCompare m x | none => []

theorem uidsIn_none {m : List EObj} {o : Nat} (h : m.length ≤ o) : uidsIn m o = [] := by
  unfold uidsIn; rw [List.getElem?_eq_none h]
theorem dictIn_none {m : List EObj} {o : Nat} (h : m.length ≤ o) : dictIn m o = [] := by
  unfold dictIn; rw [List.getElem?_eq_none h]

/-- a decidable form of `Ranked` -/
def rankedB (m : List EObj) (rank : Nat → Nat) : Bool :=
  (List.range m.length).all fun o => (dictIn m o).all fun e =>
    (e.2.subs.all fun x => match x with | .ref p => decide (p < m.length) | _ => true) &&
    (match e.2 with | .ref p => decide (rank p ≤ rank o) | _ => true) &&
    (match iter e.2 with
      | some l => l.all fun x => match x with
        | .ref p => decide (rank p ≤ rank o)
        | x => x.subs.all fun y => match y with | .ref p => decide (rank p < rank o) | _ => true
      | none => match e.2 with
        | .ref _ => true
        | v => v.subs.all fun y => match y with | .ref p => decide (rank p < rank o) | _ => true)

theorem ranked_of {m : List EObj} {rank : Nat → Nat} (h : rankedB m rank = true) : Ranked (dictIn m) m.length rank := by
  simp only [rankedB, List.all_eq_true, List.mem_range, Bool.and_eq_true] at h
  refine ⟨?_, ?_, ?_, ?_, ?_⟩
  · intro o ho k v hv p hp
    have := (h o ho _ hv).1.1 _ hp
    simpa using this
  · intro o ho k p hv
    have := (h o ho _ hv).1.2
    simpa using this
  · intro o ho k v l p hv hl hp
    have := (h o ho _ hv).2
    dsimp only at this
    rw [hl] at this
    simp only [List.all_eq_true] at this
    have := this _ hp
    simpa using this
  · intro o ho k v p hv hi hn hp
    have := (h o ho _ hv).2
    dsimp only at this
    rw [hi] at this
    dsimp only at this
    split at this
    · exact absurd rfl (hn _)
    · rw [List.all_eq_true] at this
      have := this _ hp
      simpa using this
  · intro o ho k v l x p hv hi hx hn hp
    have := (h o ho _ hv).2
    dsimp only at this
    rw [hi] at this
    simp only [List.all_eq_true] at this
    have := this _ hx
    split at this
    · exact absurd rfl (hn _)
    · rw [List.all_eq_true] at this
      have := this _ hp
      simpa using this

/-- a decidable form of `Typed` -/
def typedB (m : List EObj) (kt : String → Bool) : Bool :=
  (List.range m.length).all fun o => (dictIn m o).all fun e => (match iter e.2 with
    | some l => l.all fun x => match x with
      | .ref _ => kt e.1
      | .link _ _ => true
      | .obj _ _ _ => true
      | _ => !kt e.1
    | none => true) && e.2.subs.all fun x => match x with
      | .tuple [.str _, _] => true
      | .tuple [_, _] => false
      | _ => true

theorem typed_of {m : List EObj} {kt : String → Bool} (h : typedB m kt = true) : Typed (dictIn m) kt := by
  simp only [typedB, List.all_eq_true, List.mem_range, Bool.and_eq_true] at h
  have key : ∀ o k v l, (k, v) ∈ dictIn m o → iter v = some l → ∀ x ∈ l, (match x with
      | .ref _ => kt k
      | .link _ _ => true
      | .obj _ _ _ => true
      | _ => !kt k) = true := by
    intro o k v l hv hl x hx
    have ho : o < m.length := by
      apply Classical.byContradiction
      intro hn
      rw [dictIn_none (by omega)] at hv
      cases hv
    have := (h o ho _ hv).1
    dsimp only at this
    rw [hl] at this
    dsimp only at this
    rw [List.all_eq_true] at this
    exact this x hx
  refine ⟨?_, ?_, ?_⟩
  · intro o k v l hv hk hl x hx
    have := key o k v l hv hl x hx
    cases x <;> simp [hk] at this
    · exact Or.inr (Or.inl ⟨_, _, rfl⟩)
    · exact Or.inr (Or.inr ⟨_, _, _, rfl⟩)
    · exact Or.inl ⟨_, rfl⟩
  · rintro o k v l hv hk hl x hx q rfl
    have := key o k v l hv hl _ hx
    simp [hk] at this
  · intro o k v hv a b hab
    have ho : o < m.length := by
      apply Classical.byContradiction
      intro hn
      rw [dictIn_none (by omega)] at hv
      cases hv
    have := (h o ho _ hv).2 _ hab
    cases a with
    | str s => exact ⟨s, rfl⟩
    | _ => simp at this

/-- a decidable form of `Proper` -/
def properB (m : List EObj) : Bool :=
  (List.range m.length).all fun o => decide ((uidsIn m o).map Prod.fst).Nodup && decide ((dictIn m o).map Prod.fst).Nodup &&
    (dictIn m o).all fun e => e.2.subs.all fun w => match w with
      | .dict ks vs => decide ks.Nodup && decide (ks.length = vs.length)
      | .obj _ ns vs => decide ns.Nodup && decide (ns.length = vs.length)
      | _ => true

theorem proper_of {m : List EObj} (h : properB m = true) : Proper (uidsIn m) (dictIn m) := by
  simp only [properB, List.all_eq_true, List.mem_range, Bool.and_eq_true, decide_eq_true_eq] at h
  refine ⟨?_, ?_, ?_⟩
  · intro o
    by_cases ho : o < m.length
    · exact (h o ho).1.1
    · rw [uidsIn_none (by omega)]; exact Dict.WF_nil
  · intro o
    by_cases ho : o < m.length
    · exact (h o ho).1.2
    · rw [dictIn_none (by omega)]; exact Dict.WF_nil
  · intro o k v hv w hw
    have ho : o < m.length := by
      apply Classical.byContradiction
      intro hn
      rw [dictIn_none (by omega)] at hv
      cases hv
    have := (h o ho).2 _ hv _ hw
    refine ⟨?_, ?_⟩
    · rintro ks vs rfl
      simpa using this
    · rintro t ns vs rfl
      simpa using this

/-! ## Cases -/

/-- the fields that most objects have (base_object.py), empty -/
def common (name : String) : List (String × V) := [("_name", .str name), ("notes", .none), ("_tags", .list []), ("_file_links", .list [])]

/-- a material run -/
def aMaterial (uids : List (String × String)) (name : String) (process : V) (measurements : List V) : EObj :=
  { cls := .materialRun, uids := uids,
    fields := common name ++ [("_process", process), ("_measurements", .list measurements), ("_spec", .none), ("sample_type", .str "unknown")] }
/-- a process run -/
def aProcess (uids : List (String × String)) (name : String) (output : V) (ingredients : List V) : EObj :=
  { cls := .processRun, uids := uids,
    fields := common name ++ [("_ingredients", .list ingredients), ("_output_material", output), ("_conditions", .list []), ("_parameters", .list []),
      ("_spec", .none), ("_source", .none)] }
/-- an ingredient run -/
def anIngredient (uids : List (String × String)) (process material : V) : EObj :=
  { cls := .ingredientRun, uids := uids, fields := [("_process", process), ("_material", material), ("notes", .none), ("_tags", .list []), ("_file_links", .list []), ("_spec", .none)] }
/-- a measurement run -/
def aMeasurement (uids : List (String × String)) (name : String) (material : V) (properties : List V) : EObj :=
  { cls := .measurementRun, uids := uids,
    fields := common name ++ [("_material", material), ("_properties", .list properties), ("_conditions", .list []), ("_parameters", .list []),
      ("_spec", .none), ("_source", .none)] }
/-- a property template -/
def aTemplate (uids : List (String × String)) (name : String) : EObj :=
  { cls := .propertyTemplate, uids := uids, fields := [("name", .str name), ("description", .none), ("_tags", .list []), ("_bounds", .none)] }
/-- a property with a template -/
def aProperty (template : V) : V := .obj "property" ["name", "notes", "value", "template", "origin"] [.str "p", .none, .none, template, .str "unknown"]

/-- A material with two measurements, made by a process from another material; twice, with the ingredients and measurements in another
order. The two halves are cyclic. -/
def twice : List EObj :=
  [aMaterial [("id", "m")] "m" (.ref 1) [.ref 4, .ref 5], aProcess [("id", "p")] "p" (.ref 0) [.ref 2, .ref 3],
   anIngredient [("id", "i")] (.ref 1) (.ref 6), anIngredient [("id", "j")] (.ref 1) (.ref 6),
   aMeasurement [("id", "u")] "u" (.ref 0) [aProperty (.ref 7)], aMeasurement [("id", "v")] "u" (.ref 0) [],
   aMaterial [("id", "n")] "n" .none [], aTemplate [("id", "t")] "t",
   aMaterial [("id", "m")] "m" (.ref 9) [.ref 13, .ref 12], aProcess [("id", "p")] "p" (.ref 8) [.ref 11, .ref 10],
   anIngredient [("id", "i")] (.ref 9) (.ref 14), anIngredient [("id", "j")] (.ref 9) (.ref 14),
   aMeasurement [("id", "u")] "u" (.ref 8) [aProperty (.ref 15)], aMeasurement [("id", "v")] "u" (.ref 8) [],
   aMaterial [("id", "n")] "n" .none [], aTemplate [("id", "t")] "t"]

/-- templates have rank 0 -/
def rankIn (m : List EObj) (o : Nat) : Nat := match m[o]? with
  | some x => match x.cls with | .propertyTemplate | .conditionTemplate | .parameterTemplate => 0 | _ => 1
  | none => 0

/-- the keys of lists of entities -/
def entityKeys (k : String) : Bool := k == "ingredients" || k == "measurements"

example : Ranked (dictIn twice) 16 (rankIn twice) := ranked_of (m := twice) (by decide +kernel)
example : Typed (dictIn twice) entityKeys := typed_of (by decide +kernel)
example : Proper (uidsIn twice) (dictIn twice) := proper_of (by decide +kernel)
example : equals (uidsIn twice) (dictIn twice) 257 2 0 8 = some (.ok true) := by decide +kernel
example : equals (uidsIn twice) (dictIn twice) 257 2 2 11 = some (.ok false) := by decide +kernel

mutual
/-- the value with the entities renamed -/
def mapV (f : Nat → Nat) : V → V
  | .list l => .list (mapVs f l)
  | .tuple l => .tuple (mapVs f l)
  | .dict ks vs => .dict ks (mapVs f vs)
  | .obj t ns vs => .obj t ns (mapVs f vs)
  | .ref o => .ref (f o)
  | v => v
/-- each value -/
def mapVs (f : Nat → Nat) : List V → List V
  | [] => []
  | v :: vs => mapV f v :: mapVs f vs
end

mutual
theorem mapped_mapV {R : Nat → Nat → Prop} {f : Nat → Nat} (v : V) (hs : ShapeOk v) (h : ∀ p, .ref p ∈ v.subs → R p (f p)) : Mapped R v (mapV f v) := by
  cases v <;> simp only [mapV]
  case list l => exact .list (mapped_mapVs l (fun x hx => hs.sub (by simp only [V.subs, List.mem_cons]; exact Or.inr (mem_subss.mpr ⟨x, hx, self_mem_subs _⟩)))
    (fun p hp => h p (by simp only [V.subs, List.mem_cons]; exact Or.inr hp)))
  case tuple l => exact .tuple (mapped_mapVs l (fun x hx => hs.sub (by simp only [V.subs, List.mem_cons]; exact Or.inr (mem_subss.mpr ⟨x, hx, self_mem_subs _⟩)))
    (fun p hp => h p (by simp only [V.subs, List.mem_cons]; exact Or.inr hp)))
  case dict ks vs =>
    have g := (hs _ (self_mem_subs _)).1 ks vs rfl
    have hl : ∀ l : List V, (mapVs f l).length = l.length := by
      intro l
      induction l with
      | nil => rfl
      | cons x xs ih => simp [mapVs, ih]
    exact .dict g.2 (by rw [hl, g.2]) (mapped_mapVs' ks vs (fun x hx => hs.sub (by
      simp only [V.subs, List.mem_cons, List.mem_append]; exact Or.inr (Or.inr (mem_subss.mpr ⟨x, hx, self_mem_subs _⟩))))
      (fun p hp => h p (by simp only [V.subs, List.mem_cons, List.mem_append]; exact Or.inr (Or.inr hp)))) (List.Perm.refl _)
  case obj t ns vs => exact .obj t ns (mapped_mapVs vs (fun x hx => hs.sub (by simp only [V.subs, List.mem_cons]; exact Or.inr (mem_subss.mpr ⟨x, hx, self_mem_subs _⟩)))
    (fun p hp => h p (by simp only [V.subs, List.mem_cons]; exact Or.inr hp)))
  case ref p => exact .ref (h p (self_mem_subs _))
  case bool b => exact .num rfl rfl
  case int b => exact .num rfl rfl
  case float b => exact .num rfl rfl
  case str s => exact .str s
  case link s i => exact .link s i
  case none => exact .none
termination_by structural v
theorem mapped_mapVs {R : Nat → Nat → Prop} {f : Nat → Nat} (l : List V) (hs : ∀ x ∈ l, ShapeOk x) (h : ∀ p, .ref p ∈ subss l → R p (f p)) : MappedL R l (mapVs f l) := by
  cases l with
  | nil => exact .nil
  | cons v vs =>
    simp only [mapVs]
    exact .cons (mapped_mapV v (hs v List.mem_cons_self) (fun p hp => h p (by simp only [subss, List.mem_append]; exact Or.inl hp)))
      (mapped_mapVs vs (fun x hx => hs x (List.mem_cons_of_mem _ hx)) (fun p hp => h p (by simp only [subss, List.mem_append]; exact Or.inr hp)))
termination_by structural l
theorem mapped_mapVs' {R : Nat → Nat → Prop} {f : Nat → Nat} (ks : List V) (l : List V) (hs : ∀ x ∈ l, ShapeOk x) (h : ∀ p, .ref p ∈ subss l → R p (f p)) :
    MappedD R (ks.zip l) (ks.zip (mapVs f l)) := by
  cases l with
  | nil => simp only [mapVs, List.zip_nil_right]; exact .nil
  | cons v vs =>
    cases ks with
    | nil => exact .nil
    | cons k ks =>
      simp only [mapVs, List.zip_cons_cons]
      exact .cons (mapped_mapV v (hs v List.mem_cons_self) (fun p hp => h p (by simp only [subss, List.mem_append]; exact Or.inl hp)))
        (mapped_mapVs' ks vs (fun x hx => hs x (List.mem_cons_of_mem _ hx)) (fun p hp => h p (by simp only [subss, List.mem_append]; exact Or.inr hp)))
termination_by structural l
end

/-- a decidable form of `Alike`, for a graph whose second half, from `n` on, is the copy of the first -/
def alikeB (m : List EObj) (n : Nat) : Bool :=
  (List.range n).all fun o =>
    sameKeys (dictIn m o) (dictIn m (o + n)) && sameUids (uidsIn m o) (uidsIn m (o + n)) &&
    (dictIn m o).all fun e =>
      (e.2.subs.all fun x => match x with | .ref p => decide (p < n) | _ => true) &&
      (dictIn m (o + n)).all fun e' => decide (e.1 ≠ e'.1) || match iter e.2, iter e'.2 with
        | some l, some l' => decide ((mapVs (· + n) l).Perm l')
        | none, none => decide (mapV (· + n) e.2 = e'.2)
        | _, _ => false

/-- a decidable form of the rest of `Copies` -/
def apartB (m : List EObj) (n : Nat) : Bool :=
  (List.range n).all fun o => (dictIn m o).all fun e => (dictIn m (o + n)).all fun e' => decide (e.1 ≠ e'.1) || match iter e.2, iter e'.2 with
    | some l, some l' => l.all (fun x => l'.all fun y => match x, y with
      | .ref p, .ref q => decide (q = p + n) || !sameUids (uidsIn m p) (uidsIn m q)
      | _, _ => true)
    | _, _ => true

theorem alike_of {m : List EObj} {n : Nat} (hp : properB m = true) (h : alikeB m n = true) :
    Alike (uidsIn m) (dictIn m) (fun x y => x < n ∧ y = x + n) := by
  have hP := proper_of hp
  simp only [alikeB, List.all_eq_true, List.mem_range, Bool.and_eq_true] at h
  refine ⟨?_, ?_, ?_, ?_, ?_⟩
  · rintro p q q' ⟨_, rfl⟩ ⟨_, rfl⟩; rfl
  · rintro p p' q ⟨_, h1⟩ ⟨_, h2⟩; omega
  · rintro a b ⟨ha, rfl⟩
    exact (sameUids_iff (hP.uids _) (hP.uids _)).mp (h a ha).1.2
  · rintro a b ⟨ha, rfl⟩
    exact sameKeys_iff.mp (h a ha).1.1
  · rintro a b ⟨ha, rfl⟩ k v w hv hw
    obtain ⟨h1, h2⟩ := (h a ha).2 _ hv
    have h2 := h2 _ hw
    have href : ∀ p, .ref p ∈ v.subs → p < n ∧ p + n = p + n := by
      intro p hp'
      have := h1 _ hp'
      exact ⟨by simpa using this, rfl⟩
    simp only [ne_eq, not_true_eq_false, decide_false, Bool.false_or] at h2
    split at h2
    · rename_i l l' hl hl'
      simp only [decide_eq_true_eq] at h2
      exact .list hl hl' (mapped_mapVs l (fun x hx => (hP.shape a k v hv).sub (mem_subs_of_iter hl hx (self_mem_subs _))) (fun p hp' => by
        obtain ⟨x, hx, hx'⟩ := mem_subss.mp hp'
        exact href p (mem_subs_of_iter hl hx hx'))) h2
    · rename_i hl hl'
      rw [decide_eq_true_eq] at h2
      subst h2
      exact .plain hl hl' (mapped_mapV v (hP.shape a k v hv) href)
    · cases h2

theorem copies_of {m : List EObj} {n : Nat} (hp : properB m = true) (h : alikeB m n = true) (hap : apartB m n = true) :
    Copies (uidsIn m) (dictIn m) (fun x y => x < n ∧ y = x + n) := by
  have hP := proper_of hp
  refine ⟨alike_of hp h, ?_⟩
  simp only [alikeB, List.all_eq_true, List.mem_range, Bool.and_eq_true] at h
  simp only [apartB, List.all_eq_true, List.mem_range] at hap
  rintro a b ⟨ha, rfl⟩ k v w l l' p q hv hw hl hl' hp' hq hn
  obtain ⟨h1, _⟩ := (h a ha).2 _ hv
  have h2 := hap a ha _ hv _ hw
  simp only [ne_eq, not_true_eq_false, decide_false, Bool.false_or, hl, hl', List.all_eq_true] at h2
  have h3 := h2 _ hp' _ hq
  have hpn : p < n := by
    have := h1 _ (mem_subs_of_iter hl hp' (self_mem_subs _))
    simpa using this
  simp only [Bool.or_eq_true, decide_eq_true_eq, Bool.not_eq_true'] at h3
  rcases h3 with h3 | h3
  · exact absurd ⟨hpn, h3⟩ hn
  · left
    refine Classical.byContradiction (fun hs => ?_)
    have : sameUids (uidsIn m p) (uidsIn m q) = true := (sameUids_iff (hP.uids _) (hP.uids _)).mpr (fun s => Classical.byContradiction (fun h => hs ⟨s, h⟩))
    rw [this] at h3
    cases h3

example : Copies (uidsIn twice) (dictIn twice) (fun x y => x < 8 ∧ y = x + 8) := copies_of (by decide +kernel) (by decide +kernel) (by decide +kernel)

/-! ## Where the code disagrees -/

/-- Two materials with two measurements each: one with measurements "x" and "y", the other with two measurements "x". -/
def measured : List EObj :=
  [aMaterial [] "m" .none [.ref 1, .ref 2], aMeasurement [] "x" (.ref 0) [], aMeasurement [] "y" (.ref 0) [],
   aMaterial [] "m" .none [.ref 4, .ref 5], aMeasurement [] "x" (.ref 3) [], aMeasurement [] "x" (.ref 3) []]

/-- C34: `==` is not symmetric. One measurement "x" of the second material is equal to the measurement "x" of the first, but not the
other way round: a comparison that is in progress counts as possibly equal and does not use up the candidate, so both measurements "x"
find a match. -/
theorem C34_symmetric_counterexample : ∃ (U : Nat → List (String × String)) (D : Nat → List (String × V)) (N : Nat) (rank : Nat → Nat) (kt : String → Bool) (a b : Nat),
    Proper U D ∧ Ranked D N rank ∧ Typed D kt ∧ a < N ∧ b < N ∧ Result U D a b (.ok true) ∧ Result U D b a (.ok false) :=
  ⟨uidsIn measured, dictIn measured, 6, rankIn measured, entityKeys, 4, 1, proper_of (by decide +kernel), ranked_of (m := measured) (by decide +kernel),
    typed_of (by decide +kernel), by decide, by decide, ⟨37, 2, by decide +kernel⟩, ⟨37, 2, by decide +kernel⟩⟩

/-- The same for plain values: a tag that occurs twice. -/
def tagged : List EObj :=
  [{ cls := .processRun, uids := [], fields := [("name", .str "p"), ("_tags", .list [.str "a", .str "a"]), ("_ingredients", .list [])] },
   { cls := .processRun, uids := [], fields := [("name", .str "p"), ("_tags", .list [.str "a", .str "b"]), ("_ingredients", .list [])] }]

/-- C34: objects with tags `["a", "a"]` and `["a", "b"]` are equal one way. -/
theorem C34_tags_counterexample : ∃ (U : Nat → List (String × String)) (D : Nat → List (String × V)) (N : Nat) (rank : Nat → Nat) (kt : String → Bool) (a b : Nat),
    Proper U D ∧ Ranked D N rank ∧ Typed D kt ∧ a < N ∧ b < N ∧ Result U D a b (.ok true) ∧ Result U D b a (.ok false) :=
  ⟨uidsIn tagged, dictIn tagged, 2, rankIn tagged, entityKeys, 0, 1, proper_of (by decide +kernel), ranked_of (m := tagged) (by decide +kernel),
    typed_of (by decide +kernel), by decide, by decide, ⟨5, 2, by decide +kernel⟩, ⟨5, 2, by decide +kernel⟩⟩

/-- Two materials, each an ingredient in the making of the other and of itself (the links of a run are not checked for such cycles), and a
copy with two ingredients in the other order. No uids. -/
def half (k : Nat) (swap : Bool) : List EObj :=
  [aMaterial [] "m" (.ref (3 + k)) [.ref (1 + k)], aMeasurement [] "u" (.ref (0 + k)) [], aMaterial [] "m" (.ref (6 + k)) [],
   aProcess [] "p" (.ref (0 + k)) [.ref (4 + k), .ref (5 + k)], anIngredient [] (.ref (3 + k)) (.ref (2 + k)), anIngredient [] (.ref (3 + k)) (.ref (0 + k)),
   aProcess [] "p" (.ref (2 + k)) (if swap then [.ref (8 + k), .ref (7 + k)] else [.ref (7 + k), .ref (8 + k)]),
   anIngredient [] (.ref (6 + k)) (.ref (2 + k)), anIngredient [] (.ref (6 + k)) (.ref (0 + k))]

/-- C34: a graph and its copy, the same up to the order of a list, that do not compare equal. -/
theorem C34_isomorphic_counterexample : ∃ (U : Nat → List (String × String)) (D : Nat → List (String × V)) (N : Nat) (rank : Nat → Nat) (kt : String → Bool)
    (R : Nat → Nat → Prop) (a b : Nat), Proper U D ∧ Ranked D N rank ∧ Typed D kt ∧ Alike U D R ∧ R a b ∧ a < N ∧ b < N ∧ Result U D a b (.ok false) :=
  ⟨uidsIn (half 0 false ++ half 9 true), dictIn (half 0 false ++ half 9 true), 18, rankIn (half 0 false ++ half 9 true), entityKeys,
    fun x y => x < 9 ∧ y = x + 9, 4, 13, proper_of (by decide +kernel), ranked_of (m := half 0 false ++ half 9 true) (by decide +kernel),
    typed_of (by decide +kernel), alike_of (by decide +kernel) (by decide +kernel), by decide, by decide, by decide, ⟨325, 2, by decide +kernel⟩⟩

/-! ## C33: a cycle through plain values -/

/-- two objects, each with a list that contains a list that contains the object -/
def nested (o : Nat) : List (String × V) := [("x", .list [.list [.ref o]])]

/-- C33: comparing two such objects does not end (in Python: a RecursionError). -/
theorem C33_plain_cycle_counterexample : ∃ (D : Nat → List (String × V)), (∀ o k v p, (k, v) ∈ D o → .ref p ∈ v.subs → p = o) ∧
    ∀ n k, equals (fun _ => []) D n k 0 1 = none := by
  refine ⟨nested, ?_, ?_⟩
  · intro o k v p hv hp
    simp only [nested, List.mem_singleton, Prod.mk.injEq] at hv
    obtain ⟨rfl, rfl⟩ := hv
    simpa [V.subs, subss] using hp
  · intro n k
    have : equals (fun _ => []) nested n k 0 1 = none ∧ equals (fun _ => []) nested n k 1 0 = none := by
      induction k with
      | zero => exact ⟨rfl, rfl⟩
      | succ k ih =>
        cases n with
        | zero => exact ⟨rfl, rfl⟩
        | succ n =>
          constructor
          · simp [equals, entityEq, cachedEquals, body, Dict.get?, nested, sameKeys, sameUids, compareFields, compareValue, compareOther, iter,
              compareLists, crawl, isIn, eqV, eqVs, ih.2, Plain.and, Plain.next, Run.next]
          · simp [equals, entityEq, cachedEquals, body, Dict.get?, nested, sameKeys, sameUids, compareFields, compareValue, compareOther, iter,
              compareLists, crawl, isIn, eqV, eqVs, ih.1, Plain.and, Plain.next, Run.next]
    exact this.1

end Verif.Equal
