import Verif.Props.EditedEx
import Verif.Props.Declared
/-!
# C68: what entities hold after any history of changes
-/

set_option linter.unusedSimpArgs false
set_option linter.unusedVariables false
set_option linter.unusedSectionVars false

namespace Verif.Declared
open Verif.Py Verif.Value Verif.Schema Verif.Json Verif.Assign Verif.Inplace

section
variable {env : Env} {m : Mem}

theorem linkBack_attr (m : Mem) (o : Nat) (x : EObj) (q : Nat) {b : String} (hb : b ∉ backNames) : attrAt (linkBack m o x) q b = attrAt m q b := by
  unfold linkBack
  split
  · rename_i there back hbk
    have hback : back ∈ backNames := by
      have : ∀ c : ECls, ∀ t k, backRef c = some (t, k) → k ∈ backNames := by
        intro c t k h
        cases c <;> simp [backRef] at h <;> simp [h.2.symm, backNames]
      exact this _ _ _ hbk
    split
    · rw [attrAt_setField, if_neg]
      rintro ⟨_, rfl⟩
      exact hb hback
    · rfl
  · rfl

theorem linkBack_cls (m : Mem) (o : Nat) (x : EObj) (q : Nat) : clsAt (linkBack m o x) q = clsAt m q := by
  have := linkBack_get m o x q
  unfold clsAt
  cases h1 : (linkBack m o x)[q]? <;> cases h2 : m[q]? <;> simp [h1, h2] at this ⊢
  exact this.1

/-- C68: what the new entity has in its attributes is what is stored for what was given. It is new, of the class that was called, and of what there was before only back
references are changed. -/
theorem C68_new_stores {c : ECls} {kwargs : List (String × V)} {o : Nat} {m' : Mem} (h : constructE env m c kwargs = .ok (o, m')) :
    o = m.length ∧ clsAt m' o = some c ∧ Accepted env m (docE c) kwargs (value m' o) ∧ ∀ q n, q < m.length → value m' q n = value m q n := by
  unfold constructE at h
  split at h
  · cases h
  · rename_i x hx
    cases h
    obtain ⟨vals, u, hv, hu, rfl⟩ := newEntity_iff.1 hx
    obtain ⟨hl, ha⟩ := accept_vals.1 hv
    have hc : ∀ x : EObj, clsAt (m ++ [x]) m.length = some x.cls := fun x => by simp [clsAt]
    refine ⟨rfl, by rw [linkBack_cls]; simp [clsAt], fun p hp => ?_, fun q n hq => ?_⟩
    · obtain ⟨v, w, h1, h2, h3⟩ := ha p hp
      refine ⟨v, w, h1, h2, ?_⟩
      obtain ⟨a', ha', rfl⟩ := List.mem_map.1 ((docE_args c p).1 hp)
      obtain ⟨a, ha, rfl⟩ := List.mem_map.1 ha'
      rw [value_eq, linkBack_cls, hc]
      simp only [Option.bind_some]
      rw [show (param a.arg).name = a.name from rfl, find_name_of ha, Option.bind_some, linkBack_attr _ _ _ _ (back_attr c a ha)]
      simp only [attrAt, List.getElem?_concat_length]
      have hmem := Dict.mem_of_get? h3
      have : (a.attr, w) ∈ ((eargs c).map EArg.attr).zip vals := by
        have hz : ∀ (as : List EArg) (vs : List V), (as.map EArg.name).Nodup → (a.name, w) ∈ (as.map EArg.name).zip vs → a ∈ as → (a.attr, w) ∈ (as.map EArg.attr).zip vs := by
          intro as
          induction as with
          | nil => intro vs _ h; simp at h
          | cons b bs ih =>
            intro vs hn h hab
            cases vs with
            | nil => simp at h
            | cons v vs =>
              simp only [List.map_cons, List.nodup_cons] at hn
              rw [List.map_cons, List.zip_cons_cons] at h
              rcases List.mem_cons.1 h with h1 | h1
              · obtain ⟨_, rfl⟩ := Prod.mk.inj h1
                rcases List.mem_cons.1 hab with rfl | hab
                · simp
                · exact absurd (List.mem_map.2 ⟨a, hab, (Prod.mk.inj (by assumption : (a.name, w) = (b.name, w))).1⟩) hn.1
              · rcases List.mem_cons.1 hab with rfl | hab
                · exact absurd (List.of_mem_zip h1).1 hn.1
                · simp [ih vs hn.2 h1 hab]
        exact hz _ _ (by simpa [EArg.arg, Function.comp_def] using eargs_names c) hmem ha
      rw [get?_append, Dict.get?_of_mem _ this]
      · rfl
      · unfold Dict.WF Dict.keys
        rw [List.map_fst_zip (by simp [hl])]
        exact eargs_attrs c
    · rw [value_eq, value_eq, linkBack_cls]
      have e : ∀ (y : EObj), clsAt (m ++ [y]) q = clsAt m q := fun y => by simp [clsAt, List.getElem?_append_left hq]
      rw [e]
      cases hc : clsAt m q with
      | none => rfl
      | some d =>
        simp only [Option.bind_some]
        cases hf : (eargs d).find? (fun a => decide (a.name = n)) with
        | none => rfl
        | some a =>
          simp only [Option.bind_some]
          rw [linkBack_attr _ _ _ _ (back_attr d a (find_name hf).1)]
          simp [attrAt, List.getElem?_append_left hq]

/-- the attribute `n` of an entity of class `c` is documented to be of kind `k` -/
def IsDocumented (c : ECls) (n : String) (k : Kind) : Prop := ∃ p ∈ docE c, p.name = n ∧ p.kind = k

theorem documented_iff {c : ECls} {n : String} {k : Kind} : IsDocumented c n k ↔ ∃ a, (eargs c).find? (fun a => decide (a.name = n)) = some a ∧ a.kind = k := by
  constructor
  · rintro ⟨p, hp, rfl, rfl⟩
    obtain ⟨a', ha', rfl⟩ := List.mem_map.1 ((docE_args c p).1 hp)
    obtain ⟨a, ha, rfl⟩ := List.mem_map.1 ha'
    exact ⟨a, find_name_of ha, rfl⟩
  · rintro ⟨a, ha, rfl⟩
    obtain ⟨h1, h2⟩ := find_name ha
    exact ⟨param a.arg, (docE_args c _).2 (List.mem_map.2 ⟨a.arg, List.mem_map.2 ⟨a, h1, rfl⟩, rfl⟩), h2, rfl⟩

/-- what the setter makes of a value is what is documented -/
theorem convertTo_iff {o : Nat} {n : String} {v w : V} : convertTo env m o n v = .ok w ↔ ∃ c k, clsAt m o = some c ∧ IsDocumented c n k ∧ Stores env m k v w := by
  unfold convertTo clsAt
  cases hx : m[o]? with
  | none => simp
  | some x =>
    have e : (∃ c k, Option.map (fun y : EObj => y.cls) (some x) = some c ∧ IsDocumented c n k ∧ Stores env m k v w) ↔ ∃ k, IsDocumented x.cls n k ∧ Stores env m k v w := by simp
    refine Iff.trans ?_ e.symm
    cases ha : (eargs x.cls).find? (fun a => decide (a.name = n)) with
    | none =>
      constructor
      · intro h
        simp [ha] at h
      · rintro ⟨k, hk, _⟩
        obtain ⟨a, h, _⟩ := documented_iff.1 hk
        rw [ha] at h
        cases h
    | some a =>
      simp only [ha]
      rw [C68_setter]
      constructor
      · exact fun h => ⟨a.kind, documented_iff.2 ⟨a, ha, rfl⟩, h⟩
      · rintro ⟨k, hk, h⟩
        obtain ⟨b, hb, rfl⟩ := documented_iff.1 hk
        rw [ha] at hb
        cases hb
        exact h

/-- C68: an assignment to an attribute of any entity, after any history of changes, stores what is documented. -/
theorem C68_assignment {same : Mem → Nat → Nat → Bool} {care : Bool} (hs : Sane env) (hm : Edited env same care m) {o : Nat} {n : String} {v : V} {m' : Mem}
    (h : assign env same m o n v = .ok m') : ∃ c k w, clsAt m o = some c ∧ IsDocumented c n k ∧ Stores env m k v w ∧ value m' o n = some w := by
  obtain ⟨⟨w, h1, h2⟩, _⟩ := C67_effect hs hm h
  obtain ⟨c, k, h3, h4, h5⟩ := convertTo_iff.1 h1
  exact ⟨c, k, w, h3, h4, h5, h2⟩

/-- `w` is inside `v`: an element of a list or tuple, a value of a dictionary, an attribute of an object, at any depth -/
inductive Inside : V → V → Prop
  | self (v : V) : Inside v v
  | list {u : V} {l : List V} {w : V} : w ∈ l → Inside u w → Inside u (.list l)
  | tuple {u : V} {l : List V} {w : V} : w ∈ l → Inside u w → Inside u (.tuple l)
  | dict {u : V} {ks vs : List V} {w : V} : w ∈ vs → Inside u w → Inside u (.dict ks vs)
  | attr {u : V} {t : String} {ns : List String} {vs : List V} {w : V} : w ∈ vs → Inside u w → Inside u (.obj t ns vs)

theorem okV_inside {u v : V} (h : Inside u v) (hv : okV env m v) : okV env m u := by
  induction h with
  | self => exact hv
  | list hw _ ih => exact ih ((okVs_iff _ _ _).1 (by simpa [okV] using hv) _ hw)
  | tuple hw _ ih => exact ih ((okVs_iff _ _ _).1 (by simpa [okV] using hv) _ hw)
  | dict hw _ ih => exact ih ((okVs_iff _ _ _).1 (by simpa [okV] using hv) _ hw)
  | attr hw _ ih =>
    simp only [okV] at hv
    exact ih ((okVs_iff _ _ _).1 hv.2 _ hw)

/-- an object has the documented attributes, each with a value that is accepted and stored as it is -/
def Sound (env : Env) (m : Mem) (t : String) (ns : List String) (vs : List V) : Prop :=
  ∃ ps, Doc t ps ∧ (∀ n, n ∈ ns ↔ ∃ p ∈ ps, p.name = n) ∧ (∀ p ∈ ps, ∃ w, attrOf (.obj t ns vs) p.name = some w ∧ Stores env m p.kind w w) ∧
    (t ∈ interval → InOrder (attrOf (.obj t ns vs)))

theorem sound_of_stable {t : String} {ns : List String} {vs : List V} (h : Stable env m t ns vs) : Sound env m t ns vs := by
  obtain ⟨c, hc, rfl, hl, hconv, hord⟩ := h
  obtain ⟨ps, hd⟩ := doc_table hc
  obtain ⟨c', hc', hp, hn, ho⟩ := table_doc hd
  rw [hc] at hc'
  cases hc'
  refine ⟨ps, hd, fun n => ?_, fun p hpp => ?_, fun ht => ?_⟩
  · simp only [Cls.names, List.mem_map]
    constructor
    · rintro ⟨a, ha, rfl⟩
      exact ⟨param a, (hp _).2 (List.mem_map.2 ⟨a, ha, rfl⟩), rfl⟩
    · rintro ⟨p, hpp, rfl⟩
      obtain ⟨a, ha, rfl⟩ := List.mem_map.1 ((hp p).1 hpp)
      exact ⟨a, ha, rfl⟩
  · obtain ⟨a, ha, rfl⟩ := List.mem_map.1 ((hp p).1 hpp)
    have := (zip_iff hn (by simpa [Cls.names] using hl) (R := fun a w => Stores env m a.kind w w)).1 (fun q hq => C68_setter.1 (hconv q hq)) a ha
    obtain ⟨w, h1, h2⟩ := this
    exact ⟨w, h2, h1⟩
  · exact checkOrder_iff.1 hord (ho.2 ht)

/-- C68: after any history of constructor calls and changes every attribute of every entity holds a value of its documented kind, and so does every attribute of every object
inside it. -/
theorem C68_always {same : Mem → Nat → Nat → Bool} {care : Bool} (hs : Sane env) (hm : Edited env same care m) {o : Nat} {n : String} {v : V} (h : value m o n = some v) :
    (∃ c k, clsAt m o = some c ∧ IsDocumented c n k ∧ Stores env m k v v) ∧ ∀ t ns vs, Inside (.obj t ns vs) v → Sound env m t ns vs := by
  have hW := C67_well_typed hs hm
  obtain ⟨x, a, hx, ha, rfl, hv⟩ := value_attr h
  have hc : clsAt m o = some x.cls := by simp [clsAt, hx]
  have hf := fits_of_typed hW hc hv (back_attr _ a ha)
  refine ⟨⟨x.cls, a.kind, hc, documented_iff.2 ⟨a, find_name_of ha, rfl⟩, ?_⟩, fun t ns vs hi => ?_⟩
  · have := hf.conv
    rw [kindOf_arg ha] at this
    exact C68_setter.1 this
  · have := okV_inside hi hf.ok
    simp only [okV] at this
    exact sound_of_stable this.1

/-- C68: whatever a constructor of a class that is not an entity returns for arguments that are literals, links, or made by constructors is sound, and so is everything
inside it. -/
theorem C68_made (hs : Sane env) {v : V} (h : Made env m v) {t : String} {ns : List String} {vs : List V} (hi : Inside (.obj t ns vs) v) : Sound env m t ns vs := by
  have := okV_inside hi (h.okV hs)
  simp only [okV] at this
  exact sound_of_stable this.1

end

/-! ## Examples -/

/-- `C68_setter`: numbers are stored as floats; an integer attribute takes a float that is whole; a set is stored without repetitions -/
example : Stores plainEnv [] .nominal (.int 3) (.float 3) ∧ Stores plainEnv [] .intLike (.float 3) (.int 3) ∧
    Stores plainEnv [] .strSet (.list [.str "b", .str "a", .str "b"]) (.list [.str "a", .str "b"]) ∧ Stores plainEnv [] .formula (.str "C2H6") (.str "C2H6") ∧
    Stores plainEnv done (.target [.materialRun]) (.ref 6) (.ref 6) := by
  refine ⟨C68_setter.1 ?_, C68_setter.1 ?_, C68_setter.1 ?_, C68_setter.1 ?_, C68_setter.1 ?_⟩ <;> decide +kernel

/-- `C68_setter` and `C68_refusal`: neither is one of all values -/
example : (∀ w, ¬ Stores plainEnv [] .intLike (.float (1 / 2)) w) ∧ (∀ w, ¬ Stores plainEnv [] .formula (.str "C2Xx6") w) ∧
    (∀ w, ¬ Stores plainEnv done (.target [.materialRun]) (.ref 0) w) ∧ (∀ w, ¬ Stores plainEnv [] .probabilities (.dict [.str "a"] [.float (1 / 2)]) w) ∧
    (∀ w, ¬ Stores plainEnv [] (.ranges .propertyTemplate) (.list [.link "id" "a", .int 1]) w) := by
  have h1 : conv plainEnv [] .intLike (.float (1 / 2)) = .error .typeError := by decide +kernel
  have h2 : conv plainEnv [] .formula (.str "C2Xx6") = .error .valueError := by decide +kernel
  have h3 : conv plainEnv done (.target [.materialRun]) (.ref 0) = .error .typeError := by decide +kernel
  have h4 : conv plainEnv [] .probabilities (.dict [.str "a"] [.float (1 / 2)]) = .error .valueError := by decide +kernel
  have h5 : conv plainEnv [] (.ranges .propertyTemplate) (.list [.link "id" "a", .int 1]) = .error .typeError := by decide +kernel
  exact ⟨(C68_refusal h1).2, (C68_refusal h2).2, (C68_refusal h3).2, (C68_refusal h4).2, (C68_refusal h5).2⟩

/-- `C68_constructor`: bounds in order are accepted, others are not, and a missing bound is not -/
example : ∃ c, Dict.get? table "integer_bounds" = some c ∧
    construct plainEnv [] "integer_bounds" c [("lower_bound", .int 1), ("upper_bound", .float 2)] = .ok (.obj "integer_bounds" ["lower_bound", "upper_bound"] [.int 1, .int 2]) ∧
    construct plainEnv [] "integer_bounds" c [("lower_bound", .int 3), ("upper_bound", .int 2)] = .error .valueError ∧
    construct plainEnv [] "integer_bounds" c [("lower_bound", .int 3)] = .error .typeError := by
  refine ⟨_, rfl, ?_, ?_, ?_⟩ <;> decide +kernel

/-- `C68_new_accepts` and `C68_new_stores`: a measurement of a material with a tag and an id -/
example : (∃ o m', constructE plainEnv done .measurementRun [("name", .str "x"), ("material", .ref 6), ("tags", .tuple [.str "t"]), ("uids", .dict [.str "id"] [.str "z"])] =
      .ok (o, m') ∧ value m' o "material" = some (.ref 6) ∧ value m' o "tags" = some (.list [.str "t"]) ∧ value m' o "notes" = some .none) ∧
    constructE plainEnv done .measurementRun [("name", .str "x"), ("material", .ref 0)] = .error .typeError := by
  refine ⟨?_, by decide +kernel⟩
  have h : (match constructE plainEnv done .measurementRun [("name", .str "x"), ("material", .ref 6), ("tags", .tuple [.str "t"]), ("uids", .dict [.str "id"] [.str "z"])] with
    | .ok (o, m') => decide (value m' o "material" = some (.ref 6) ∧ value m' o "tags" = some (.list [.str "t"]) ∧ value m' o "notes" = some .none)
    | .error _ => false) = true := by decide +kernel
  split at h
  · rename_i o m' hm
    exact ⟨o, m', hm, of_decide_eq_true h⟩
  · cases h

/-- `C68_assignment` and `C68_always`: the history of `done` and one more assignment -/
example : ∃ m' c k w, assign plainEnv sameAll done 7 "material" (.ref 5) = .ok m' ∧ clsAt done 7 = some c ∧ IsDocumented c "material" k ∧ Stores plainEnv done k (.ref 5) w ∧
    value m' 7 "material" = some w ∧ value done 5 "tags" = some (.list [.str "y", .str "z"]) := by
  obtain ⟨m', h⟩ := C67_accepts_partial plainEnv_sane done_edited (o := 7) (n := "material") (v := .ref 5) (w := .ref 5) (by decide +kernel)
  obtain ⟨c, k, w, h1, h2, h3, h4⟩ := C68_assignment plainEnv_sane done_edited h
  exact ⟨m', c, k, w, h, h1, h2, h3, h4, by decide +kernel⟩

/-- `C68_made`: a quantity is inside a property -/
example : ∃ ns vs, aProp threeKg = .obj "property" ns vs ∧ Inside threeKg (aProp threeKg) := by
  refine ⟨_, _, rfl, .attr (w := threeKg) ?_ (.self _)⟩
  decide +kernel

end Verif.Declared
