import Verif.Props.CheckedTrip
/-!
# C69: the checks give the same answer for an entity and for its image
-/

set_option linter.unusedSimpArgs false
set_option linter.unusedVariables false
set_option linter.unusedSectionVars false

namespace Verif.Checked
open Verif.Py Verif.Value Verif.Schema Verif.Json Verif.Level Verif.Substitute Verif.Traverse

/-- the same value, apart from the order of dictionaries, the type of numbers, and which entities it mentions -/
abbrev Alike : V → V → Prop := alike (fun _ w => ∃ q, w = .ref q) SameLink

/-- What is assumed of the checks. Whether a value is within bounds depends on what the two contain, not on the order of dictionaries or on
whether a number is an int or a float. `==` of templates: an object equals itself; equal objects have the same ids (C31); a link equals
what carries its id (C32); links are compared by what they contain. -/
structure Fair (lower : String → String) (J : Judge) : Prop where
  within : ∀ b b' v v', Alike b b' → Alike v v' → J.within b v = J.within b' v'
  fraction : ∀ v v', Alike v v' → J.fraction v = J.fraction v'
  amount : ∀ v v', Alike v v' → J.amount v = J.amount v'
  refl : ∀ m o, J.same m (.ref o) (.ref o) = true
  ids : ∀ m o p s i, J.same m (.ref o) (.ref p) = true → Carries lower m o s i → Carries lower m p s i
  link : ∀ m s i o, J.same m (.link s i) (.ref o) = true → Carries lower m o (lower s) i
  link' : ∀ m s i o, J.same m (.ref o) (.link s i) = true → Carries lower m o (lower s) i
  links : ∀ m m' s i t j, J.same m (.link s i) (.link t j) = J.same m' (.link s i) (.link t j)
  other : ∀ m v w, ¬ (pointerLike v ∧ pointerLike w) → J.same m v w = false

/-- the attributes that the checks look at -/
def readNames : List String := ["_bounds", "name", "_template", "_spec", "_properties", "_conditions", "_parameters", "_mass_fraction", "_volume_fraction",
  "_number_fraction", "_absolute_quantity"]

/-- entities in the value are among `S`; no link in it means one of them -/
def Good (lower : String → String) (m : Mem) (S : Nat → Prop) (v : V) : Prop :=
  (∀ p, V.ref p ∈ v.subs → S p) ∧ ∀ s i, V.link s i ∈ v.subs → ∀ p, S p → ¬ Carries lower m p (lower s) i

/-- the image of a value -/
def Pair (lower : String → String) (m : Mem) (S : Nat → Prop) (φ : Nat → Nat) (v u : V) : Prop :=
  alike (fun o w => w = .ref (φ o)) SameLink v u ∧ Good lower m S v

/-- an attribute and its image -/
inductive SameField (R : V → V → Prop) : Option V → Option V → Prop where
  | none : SameField R none none
  | some {v u : V} : R v u → SameField R (some v) (some u)

/-- the entities `S` of `m` have images in `m'` -/
structure Mirror (lower : String → String) (m m' : Mem) (S : Nat → Prop) (φ : Nat → Nat) : Prop where
  node : ∀ o, S o → ∃ x z, m[o]? = some x ∧ m'[φ o]? = some z ∧ z.cls = x.cls ∧ z.uids.Perm x.uids ∧
    ∀ n ∈ readNames, SameField (Pair lower m S φ) (Dict.get? x.fields n) (Dict.get? z.fields n)
  apart : ∀ p q s i, S p → S q → Carries lower m p s i → Carries lower m q s i → p = q
  ident : ∀ p, S p → ∃ s i, Carries lower m p s i

section
variable {lower : String → String} {J : Judge} {m m' : Mem} {S : Nat → Prop} {φ : Nat → Nat}

theorem Good.mono {v w : V} (h : Good lower m S v) (hs : ∀ u ∈ w.subs, u ∈ v.subs) : Good lower m S w :=
  ⟨fun p hp => h.1 p (hs _ hp), fun s i hi => h.2 s i (hs _ hi)⟩

theorem subs_list {l : List V} {v : V} (hv : v ∈ l) : ∀ u ∈ v.subs, u ∈ (V.list l).subs := by
  intro u hu
  simp only [V.subs, List.mem_cons]
  exact .inr (mem_subss.2 ⟨v, hv, hu⟩)

theorem subs_tuple {l : List V} {v : V} (hv : v ∈ l) : ∀ u ∈ v.subs, u ∈ (V.tuple l).subs := by
  intro u hu
  simp only [V.subs, List.mem_cons]
  exact .inr (mem_subss.2 ⟨v, hv, hu⟩)

theorem subs_dict {ks vs : List V} {v : V} (hv : v ∈ vs) : ∀ u ∈ v.subs, u ∈ (V.dict ks vs).subs := by
  intro u hu
  simp only [V.subs, List.mem_cons, List.mem_append]
  exact .inr (.inr (mem_subss.2 ⟨v, hv, hu⟩))

theorem subs_obj {t : String} {ns : List String} {vs : List V} {v : V} (hv : v ∈ vs) : ∀ u ∈ v.subs, u ∈ (V.obj t ns vs).subs := by
  intro u hu
  simp only [V.subs, List.mem_cons]
  exact .inr (mem_subss.2 ⟨v, hv, hu⟩)

theorem Pair.alike {v u : V} (h : Pair lower m S φ v u) : Alike v u :=
  alike_mono _ _ (fun o w _ e => ⟨_, e⟩) (fun _ _ _ _ e => e) h.1

theorem pair_none : Pair lower m S φ .none .none := by
  refine ⟨by simp [Substitute.alike], ?_, ?_⟩ <;> simp [V.subs]

/-- None stays None -/
theorem Pair.none_iff {v u : V} (h : Pair lower m S φ v u) : v = .none ↔ u = .none := by
  obtain ⟨h, _⟩ := h
  cases v <;> simp [Substitute.alike, SameLink] at h ⊢
  · exact h
  · rintro rfl; simp [num] at h
  · rintro rfl; simp [num] at h
  · rintro rfl; simp [num] at h
  · rintro rfl; simp at h
  · rintro rfl; simp at h
  · obtain ⟨_, rfl, _⟩ := h; simp
  · obtain ⟨_, rfl, _⟩ := h; simp
  · obtain ⟨_, _, rfl, _⟩ := h; simp
  · obtain ⟨_, rfl, _⟩ := h; simp
  · rintro rfl; simp at h

/-- the image of an entity -/
theorem Pair.ref {v : V} {o : Nat} {u : V} (h : Pair lower m S φ (.ref o) u) : u = .ref (φ o) ∧ S o := by
  obtain ⟨h, hg⟩ := h
  simp only [Substitute.alike] at h
  exact ⟨h, hg.1 o (self_mem_subs _)⟩

/-- what is not an entity is not sent to one -/
theorem Pair.not_ref {v u : V} (h : Pair lower m S φ v u) (hv : ∀ o, v ≠ .ref o) : ∀ o, u ≠ .ref o := by
  obtain ⟨h, _⟩ := h
  rintro o rfl
  cases v <;> simp [Substitute.alike, SameLink, num] at h
  exact hv _ rfl

theorem Pair.field (hM : Mirror lower m m' S φ) {v u : V} (h : Pair lower m S φ v u) {n : String} (hn : n ∈ readNames) :
    Pair lower m S φ (field m v n) (field m' u n) := by
  by_cases hv : ∃ o, v = .ref o
  · obtain ⟨o, rfl⟩ := hv
    obtain ⟨rfl, hS⟩ := h.ref (v := .none)
    obtain ⟨x, z, hx, hz, _, _, hf⟩ := hM.node o hS
    simp only [Checked.field, hx, hz]
    have := hf n hn
    cases h1 : Dict.get? x.fields n <;> cases h2 : Dict.get? z.fields n <;> rw [h1, h2] at this <;> cases this
    · exact pair_none
    · assumption
  · have hv' : ∀ o, v ≠ .ref o := fun o e => hv ⟨o, e⟩
    have hu := h.not_ref hv'
    have e1 : Checked.field m v n = .none := by cases v <;> first | rfl | exact absurd rfl (hv' _)
    have e2 : Checked.field m' u n = .none := by cases u <;> first | rfl | exact absurd rfl (hu _)
    rw [e1, e2]
    exact pair_none

theorem pair_attr {ns : List String} {vs us : List V} (h : alikes (fun o w => w = .ref (φ o)) SameLink vs us) (hg : ∀ v ∈ vs, Good lower m S v) (n : String) :
    Pair lower m S φ (attr ns vs n) (attr ns us n) := by
  induction ns generalizing vs us with
  | nil => simpa [attr, Dict.get?] using pair_none
  | cons a ns ih =>
    cases vs with
    | nil =>
      simp only [alikes] at h
      subst h
      simpa [attr, Dict.get?] using pair_none
    | cons v vs =>
      simp only [alikes] at h
      obtain ⟨w, ws, rfl, h1, h2⟩ := h
      simp only [attr, List.zip_cons_cons, Dict.get?]
      by_cases e : a = n
      · simp only [if_pos e, Option.getD_some]
        exact ⟨h1, hg v (by simp)⟩
      · simp only [if_neg e]
        exact ih h2 (fun v hv => hg v (by simp [hv]))

/-- a list and the list of the images -/
inductive Pairs (R : V → V → Prop) : List V → List V → Prop where
  | nil : Pairs R [] []
  | cons {v u : V} {vs us : List V} : R v u → Pairs R vs us → Pairs R (v :: vs) (u :: us)

theorem pairs_of {vs us : List V} (h : alikes (fun o w => w = .ref (φ o)) SameLink vs us) (hg : ∀ v ∈ vs, Good lower m S v) :
    Pairs (Pair lower m S φ) vs us := by
  induction vs generalizing us with
  | nil => simp only [alikes] at h; subst h; exact .nil
  | cons v vs ih =>
    simp only [alikes] at h
    obtain ⟨w, ws, rfl, h1, h2⟩ := h
    exact .cons ⟨h1, hg v (by simp)⟩ (ih h2 (fun v hv => hg v (by simp [hv])))

theorem Pair.items {v u : V} (h : Pair lower m S φ v u) : Pairs (Pair lower m S φ) (items v) (items u) := by
  obtain ⟨h, hg⟩ := h
  cases v <;> simp only [Substitute.alike, SameLink] at h
  case list l =>
    obtain ⟨l', rfl, h⟩ := h
    exact pairs_of h (fun w hw => hg.mono (subs_list hw))
  case bool | int | float => cases u <;> simp [num] at h <;> exact .nil
  case tuple | obj => obtain ⟨_, rfl, _⟩ := h; exact .nil
  case dict => obtain ⟨_, _, _, rfl, _⟩ := h; exact .nil
  all_goals (subst h; exact .nil)

/-- an entry of an object template and its image -/
theorem Pair.entry {v u : V} (h : Pair lower m S φ v u) : (entry v = none ∧ entry u = none) ∨
    ∃ a b a' b', entry v = some (a, b) ∧ entry u = some (a', b') ∧ Pair lower m S φ a a' ∧ Pair lower m S φ b b' := by
  obtain ⟨h, hg⟩ := h
  cases v <;> simp only [Substitute.alike, SameLink] at h
  case list l =>
    obtain ⟨l', rfl, h⟩ := h
    have hp := pairs_of h (fun w hw => hg.mono (subs_list hw))
    cases hp with
    | nil => exact .inl ⟨rfl, rfl⟩
    | cons h1 hp =>
      cases hp with
      | nil => exact .inl ⟨rfl, rfl⟩
      | cons h2 hp =>
        cases hp with
        | nil => exact .inr ⟨_, _, _, _, rfl, rfl, h1, h2⟩
        | cons _ _ => exact .inl ⟨rfl, rfl⟩
  case bool | int | float => cases u <;> simp [num] at h <;> exact .inl ⟨rfl, rfl⟩
  case tuple | obj => obtain ⟨_, rfl, _⟩ := h; exact .inl ⟨rfl, rfl⟩
  case dict => obtain ⟨_, _, _, rfl, _⟩ := h; exact .inl ⟨rfl, rfl⟩
  all_goals (subst h; exact .inl ⟨rfl, rfl⟩)

theorem Pair.nameIs {v u w x : V} (h : Pair lower m S φ v u) (h' : Pair lower m S φ w x) : nameIs v w = nameIs u x := by
  obtain ⟨h, _⟩ := h
  obtain ⟨h', _⟩ := h'
  have key : ∀ {a b : V}, Substitute.alike (fun o w => w = .ref (φ o)) SameLink a b → (∃ s, a = .str s ∧ b = .str s) ∨ (∀ s, a ≠ .str s) ∧ ∀ s, b ≠ .str s := by
    intro a b h
    cases a <;> simp only [Substitute.alike, SameLink] at h
    case str s => exact .inl ⟨s, rfl, h⟩
    case bool | int | float => cases b <;> simp [num] at h <;> exact .inr ⟨by simp, by simp⟩
    case list | tuple | obj => obtain ⟨_, rfl, _⟩ := h; exact .inr ⟨by simp, by simp⟩
    case dict => obtain ⟨_, _, _, rfl, _⟩ := h; exact .inr ⟨by simp, by simp⟩
    all_goals (subst h; exact .inr ⟨by simp, by simp⟩)
  have no : ∀ {a b : V}, (∀ s, a ≠ .str s) ∨ (∀ s, b ≠ .str s) → Checked.nameIs a b = false := by
    intro a b h
    cases a <;> cases b <;> first | rfl | (rcases h with h | h <;> exact absurd rfl (h _))
  rcases key h with ⟨s, rfl, rfl⟩ | ⟨h1, h2⟩
  · rcases key h' with ⟨t, rfl, rfl⟩ | ⟨h3, h4⟩
    · rfl
    · rw [no (.inr h3), no (.inr h4)]
  · rw [no (.inl h1), no (.inl h2)]

theorem Mirror.carries (hM : Mirror lower m m' S φ) {o : Nat} (ho : S o) {s i : String} : Carries lower m' (φ o) s i ↔ Carries lower m o s i := by
  obtain ⟨x, z, hx, hz, _, hp, _⟩ := hM.node o ho
  constructor
  · rintro ⟨z', hz', sc, h1, h2⟩
    rw [hz] at hz'; cases hz'
    exact ⟨x, hx, sc, hp.mem_iff.1 h1, h2⟩
  · rintro ⟨x', hx', sc, h1, h2⟩
    rw [hx] at hx'; cases hx'
    exact ⟨z, hz, sc, hp.mem_iff.2 h1, h2⟩

theorem Pair.pointer {v u : V} (h : Pair lower m S φ v u) : (∃ o, S o ∧ v = .ref o ∧ u = .ref (φ o)) ∨
    (∃ s i, v = .link s i ∧ u = .link s i ∧ ∀ p, S p → ¬ Carries lower m p (lower s) i) ∨ (¬ pointerLike v ∧ ¬ pointerLike u) := by
  obtain ⟨h, hg⟩ := h
  cases v <;> simp only [Substitute.alike, SameLink] at h
  case ref o => exact .inl ⟨o, hg.1 o (self_mem_subs _), rfl, h⟩
  case link s i => exact .inr (.inl ⟨s, i, rfl, h, hg.2 s i (self_mem_subs _)⟩)
  case bool | int | float => cases u <;> simp [num] at h <;> exact .inr (.inr ⟨by simp [pointerLike], by simp [pointerLike]⟩)
  case list | tuple | obj => obtain ⟨_, rfl, _⟩ := h; exact .inr (.inr ⟨by simp [pointerLike], by simp [pointerLike]⟩)
  case dict => obtain ⟨_, _, _, rfl, _⟩ := h; exact .inr (.inr ⟨by simp [pointerLike], by simp [pointerLike]⟩)
  all_goals (subst h; exact .inr (.inr ⟨by simp [pointerLike], by simp [pointerLike]⟩))

/-- templates are equal where their images are -/
theorem Pair.same (hJ : Fair lower J) (hM : Mirror lower m m' S φ) {v u w x : V} (h : Pair lower m S φ v u) (h' : Pair lower m S φ w x) :
    J.same m v w = J.same m' u x := by
  rcases h.pointer with ⟨o, ho, rfl, rfl⟩ | ⟨s, i, rfl, rfl, hl⟩ | ⟨h1, h2⟩
  · rcases h'.pointer with ⟨p, hp, rfl, rfl⟩ | ⟨t, k, rfl, rfl, hl'⟩ | ⟨h3, h4⟩
    · by_cases e : o = p
      · subst e; rw [hJ.refl, hJ.refl]
      · obtain ⟨s, i, hc⟩ := hM.ident o ho
        have e1 : J.same m (.ref o) (.ref p) = false := by
          cases hs : J.same m (.ref o) (.ref p) with
          | false => rfl
          | true => exact absurd (hM.apart o p s i ho hp hc (hJ.ids _ _ _ _ _ hs hc)) e
        have e2 : J.same m' (.ref (φ o)) (.ref (φ p)) = false := by
          cases hs : J.same m' (.ref (φ o)) (.ref (φ p)) with
          | false => rfl
          | true => exact absurd (hM.apart o p s i ho hp hc ((hM.carries hp).1 (hJ.ids _ _ _ _ _ hs ((hM.carries ho).2 hc)))) e
        rw [e1, e2]
    · have e1 : J.same m (.ref o) (.link t k) = false := by
        cases hs : J.same m (.ref o) (.link t k) with
        | false => rfl
        | true => exact absurd (hJ.link' _ _ _ _ hs) (hl' o ho)
      have e2 : J.same m' (.ref (φ o)) (.link t k) = false := by
        cases hs : J.same m' (.ref (φ o)) (.link t k) with
        | false => rfl
        | true => exact absurd ((hM.carries ho).1 (hJ.link' _ _ _ _ hs)) (hl' o ho)
      rw [e1, e2]
    · rw [hJ.other _ _ _ (fun h => h3 h.2), hJ.other _ _ _ (fun h => h4 h.2)]
  · rcases h'.pointer with ⟨p, hp, rfl, rfl⟩ | ⟨t, k, rfl, rfl, _⟩ | ⟨h3, h4⟩
    · have e1 : J.same m (.link s i) (.ref p) = false := by
        cases hs : J.same m (.link s i) (.ref p) with
        | false => rfl
        | true => exact absurd (hJ.link _ _ _ _ hs) (hl p hp)
      have e2 : J.same m' (.link s i) (.ref (φ p)) = false := by
        cases hs : J.same m' (.link s i) (.ref (φ p)) with
        | false => rfl
        | true => exact absurd ((hM.carries hp).1 (hJ.link _ _ _ _ hs)) (hl p hp)
      rw [e1, e2]
    · exact hJ.links _ _ _ _ _ _
    · rw [hJ.other _ _ _ (fun h => h3 h.2), hJ.other _ _ _ (fun h => h4 h.2)]
  · rw [hJ.other _ _ _ (fun h => h1 h.1), hJ.other _ _ _ (fun h => h2 h.1)]

/-- the entry that applies, and its image -/
theorem applies_pair (hJ : Fair lower J) (hM : Mirror lower m m' S φ) {t t' n n' : V} (ht : Pair lower m S φ t t') (hn : Pair lower m S φ n n')
    {es es' : List V} (h : Pairs (Pair lower m S φ) es es') :
    (∃ e, applies J m t n es = .error e ∧ applies J m' t' n' es' = .error e) ∨ (applies J m t n es = .ok none ∧ applies J m' t' n' es' = .ok none) ∨
    ∃ a b a' b', applies J m t n es = .ok (some (a, b)) ∧ applies J m' t' n' es' = .ok (some (a', b')) ∧ Pair lower m S φ a a' ∧ Pair lower m S φ b b' := by
  induction h with
  | nil => exact .inr (.inl ⟨rfl, rfl⟩)
  | cons h1 _ ih =>
    rcases h1.entry with ⟨e1, e2⟩ | ⟨a, b, a', b', e1, e2, ha, hb⟩
    · simp only [applies, e1, e2]
      exact ih
    · simp only [applies, e1, e2]
      by_cases h0 : t = .none
      · have h0' := ht.none_iff.1 h0
        simp only [h0, h0', ne_eq, not_true_eq_false, if_false]
        rw [h0, h0'] at ih
        rcases ha.pointer with ⟨o, ho, rfl, rfl⟩ | ⟨s, i, rfl, rfl, _⟩ | ⟨h2, h3⟩
        · have := hn.nameIs (ha.field hM (n := "name") (by simp [readNames]))
          simp only [← this]
          split
          · exact .inr (.inr ⟨_, _, _, _, rfl, rfl, ha, hb⟩)
          · exact ih
        · exact .inl ⟨_, rfl, rfl⟩
        · left
          refine ⟨.attributeError, ?_, ?_⟩
          · cases a <;> first | rfl | simp [pointerLike] at h2
          · cases a' <;> first | rfl | simp [pointerLike] at h3
      · have h0' : t' ≠ .none := fun e => h0 (ht.none_iff.2 e)
        simp only [ne_eq, h0, h0', not_false_eq_true, if_true, ← ht.same hJ hM ha]
        split
        · exact .inr (.inr ⟨_, _, _, _, rfl, rfl, ha, hb⟩)
        · exact ih

theorem Pair.isOf (hM : Mirror lower m m' S φ) {v u : V} (h : Pair lower m S φ v u) (k : ECls) : isOf m k v = isOf m' k u := by
  by_cases hv : ∃ o, v = .ref o
  · obtain ⟨o, rfl⟩ := hv
    obtain ⟨rfl, hS⟩ := h.ref (v := .none)
    obtain ⟨x, z, hx, hz, hc, _⟩ := hM.node o hS
    simp only [Checked.isOf, hx, hz, hc]
  · have hv' : ∀ o, v ≠ .ref o := fun o e => hv ⟨o, e⟩
    have hu := h.not_ref hv'
    have e1 : Checked.isOf m k v = false := by cases v <;> first | rfl | exact absurd rfl (hv' _)
    have e2 : Checked.isOf m' k u = false := by cases u <;> first | rfl | exact absurd rfl (hu _)
    rw [e1, e2]

theorem good_obj {t : String} {ns : List String} {vs : List V} (h : Good lower m S (.obj t ns vs)) : ∀ v ∈ vs, Good lower m S v :=
  fun v hv => h.mono (subs_obj hv)

/-- an object and its image -/
theorem Pair.obj {v u : V} (h : Pair lower m S φ v u) : (∃ t ns vs us, v = .obj t ns vs ∧ u = .obj t ns us ∧ alikes (fun o w => w = .ref (φ o)) SameLink vs us ∧
    ∀ w ∈ vs, Good lower m S w) ∨ (∀ t ns vs, v ≠ .obj t ns vs) ∧ ∀ t ns vs, u ≠ .obj t ns vs := by
  obtain ⟨h, hg⟩ := h
  cases v <;> simp only [Substitute.alike, SameLink] at h
  case obj t ns vs => obtain ⟨us, rfl, h⟩ := h; exact .inl ⟨t, ns, vs, us, rfl, rfl, h, good_obj hg⟩
  case bool | int | float => cases u <;> simp [num] at h <;> exact .inr ⟨by simp, by simp⟩
  case list | tuple => obtain ⟨_, rfl, _⟩ := h; exact .inr ⟨by simp, by simp⟩
  case dict => obtain ⟨_, _, _, rfl, _⟩ := h; exact .inr ⟨by simp, by simp⟩
  all_goals (subst h; exact .inr ⟨by simp, by simp⟩)

/-- what the check sees of an attribute, and of its image -/
theorem Pair.view {v u : V} (h : Pair lower m S φ v u) : Pair lower m S φ (view v).1 (view u).1 ∧ Pair lower m S φ (view v).2.1 (view u).2.1 ∧
    Pair lower m S φ (view v).2.2 (view u).2.2 := by
  rcases h.obj with ⟨t, ns, vs, us, rfl, rfl, ha, hg⟩ | ⟨h1, h2⟩
  · simp only [Checked.view]
    split
    · have hp := pair_attr (ns := ns) ha hg "property"
      rcases hp.obj with ⟨t', ns', vs', us', e1, e2, ha', hg'⟩ | ⟨h1, h2⟩
      · simp only [e1, e2]
        exact ⟨pair_attr ha' hg' _, pair_attr ha' hg' _, pair_attr ha' hg' _⟩
      · split
        · rename_i e; exact absurd e (h1 _ _ _)
        · exact ⟨pair_none, pair_none, pair_none⟩
    · exact ⟨pair_attr ha hg _, pair_attr ha hg _, pair_attr ha hg _⟩
  · have e1 : ∀ w : V, (∀ t ns vs, w ≠ .obj t ns vs) → Checked.view w = (.none, .none, .none) := by
      intro w hw
      cases w <;> first | rfl | exact absurd rfl (hw _ _ _)
    rw [e1 _ h1, e1 _ h2]
    exact ⟨pair_none, pair_none, pair_none⟩

theorem validate_pair (hJ : Fair lower J) (hM : Mirror lower m m' S φ) {v u : V} (h : Pair lower m S φ v u) {es es' : List V}
    (he : Pairs (Pair lower m S φ) es es') (k : ECls) : validate J m k es v = validate J m' k es' u := by
  obtain ⟨h1, h2, h3⟩ := h.view
  unfold validate
  rcases applies_pair hJ hM h1 h2 he with ⟨e, e1, e2⟩ | ⟨e1, e2⟩ | ⟨a, b, a', b', e1, e2, ha, hb⟩
  · rw [e1, e2]
  · rw [e1, e2]
  · rw [e1, e2]
    simp only
    by_cases hn : b = .none
    · have hn' := hb.none_iff.1 hn
      simp only [hn, hn', ne_eq, not_true_eq_false, if_false, ← ha.isOf hM k]
      rw [hJ.within _ _ _ _ (ha.field hM (n := "_bounds") (by simp [readNames])).alike h3.alike]
    · have hn' : b' ≠ .none := fun e => hn (hb.none_iff.2 e)
      simp only [ne_eq, hn, hn', not_false_eq_true, if_true]
      exact hJ.within _ _ _ _ hb.alike h3.alike

theorem pairs_map {R : V → V → Prop} {α : Type} {f g : V → α} {l l' : List V} (h : Pairs R l l') (hf : ∀ v u, R v u → f v = g u) : l.map f = l'.map g := by
  induction h with
  | nil => rfl
  | cons h1 _ ih => simp [hf _ _ h1, ih]

theorem templateOf_pair (hM : Mirror lower m m' S φ) {v u : V} (h : Pair lower m S φ v u) (c : ECls) :
    Pair lower m S φ (templateOf m c v) (templateOf m' c u) := by
  unfold templateOf
  split
  iterate 3 exact h.field hM (by simp [readNames])
  iterate 2 exact (h.field hM (by simp [readNames])).field hM (by simp [readNames])
  exact pair_none

/-- The checks say the same about an object and about its image. -/
theorem guard_pair (hJ : Fair lower J) (hM : Mirror lower m m' S φ) {v u : V} (h : Pair lower m S φ v u) (l : Level) : guard J l m v = guard J l m' u := by
  rcases h.obj with ⟨t, ns, vs, us, rfl, rfl, ha, hg⟩ | ⟨h1, h2⟩
  · simp only [guard]
    split
    · have ht := pair_attr (ns := ns) ha hg "template"
      have hv := pair_attr (ns := ns) ha hg "value"
      by_cases hr : ∃ o, attr ns vs "template" = .ref o
      · obtain ⟨o, e⟩ := hr
        rw [e] at ht
        obtain ⟨e', _⟩ := ht.ref (v := .none)
        rw [e, e']
        rw [e'] at ht
        simp only [attrGuard]
        rw [hJ.within _ _ _ _ (ht.field hM (n := "_bounds") (by simp [readNames])).alike hv.alike]
        by_cases hn : attr ns vs "value" = .none
        · rw [if_pos hn, if_pos (hv.none_iff.1 hn)]
        · rw [if_neg hn, if_neg (fun e => hn (hv.none_iff.2 e))]
      · have hr' : ∀ o, attr ns vs "template" ≠ .ref o := fun o e => hr ⟨o, e⟩
        have hu := ht.not_ref hr'
        unfold attrGuard
        split
        · rename_i o e; exact absurd e (hr' o)
        · rfl
    · rfl
  · by_cases hv : ∃ o, v = .ref o
    · obtain ⟨o, rfl⟩ := hv
      obtain ⟨rfl, hS⟩ := h.ref (v := .none)
      obtain ⟨x, z, hx, hz, hc, _⟩ := hM.node o hS
      simp only [guard, hx, hz, hc]
      congr 2
      · have ht := templateOf_pair hM h x.cls
        unfold listGuards
        by_cases hr : ∃ t, templateOf m x.cls (.ref o) = .ref t
        · obtain ⟨t, e⟩ := hr
          rw [e] at ht
          obtain ⟨e', _⟩ := ht.ref (v := .none)
          rw [e, e']
          rw [e'] at ht
          simp only
          have key : ∀ n ∈ checkedLists x.cls, n.1 ∈ readNames := by
            have : ∀ c : ECls, ∀ n ∈ checkedLists c, n.1 ∈ readNames := by intro c; cases c <;> decide +kernel
            exact this _
          rw [List.flatMap_def, List.flatMap_def]
          congr 1
          apply List.map_congr_left
          intro n hn
          apply pairs_map (h.field hM (key n hn)).items
          intro a a' haa
          rw [validate_pair hJ hM haa (ht.field hM (key n hn)).items n.2]
        · have hr' : ∀ t, templateOf m x.cls (.ref o) ≠ .ref t := fun t e => hr ⟨t, e⟩
          have hu := ht.not_ref hr'
          split
          · rename_i t e; exact absurd e (hr' t)
          · rfl
      · unfold quantityGuards
        split
        · have hf : ∀ n ∈ ["_mass_fraction", "_volume_fraction", "_number_fraction"], n ∈ readNames := by decide +kernel
          congr 1
          · apply List.map_congr_left
            intro n hn
            have hp := h.field hM (hf n hn)
            rw [hJ.fraction _ _ hp.alike]
            by_cases he : Checked.field m (.ref o) n = .none
            · rw [if_pos he, if_pos (hp.none_iff.1 he)]
            · rw [if_neg he, if_neg (fun e => he (hp.none_iff.2 e))]
          · have hp := h.field hM (n := "_absolute_quantity") (by simp [readNames])
            unfold amountGuard
            rw [hJ.amount _ _ hp.alike]
            by_cases he : Checked.field m (.ref o) "_absolute_quantity" = .none
            · rw [if_pos he, if_pos (hp.none_iff.1 he)]
            · rw [if_neg he, if_neg (fun e => he (hp.none_iff.2 e))]
        · rfl
    · have hv' : ∀ o, v ≠ .ref o := fun o e => hv ⟨o, e⟩
      have hu := h.not_ref hv'
      have e1 : ∀ (m : Mem) (w : V), (∀ o, w ≠ .ref o) → (∀ t ns vs, w ≠ .obj t ns vs) → guard J l m w = .ok () := by
        intro m w hw hw'
        cases w <;> first | rfl | exact absurd rfl (hw _) | exact absurd rfl (hw' _ _ _)
      rw [e1 m v hv' h1, e1 m' u hu h2]

end

end Verif.Checked
