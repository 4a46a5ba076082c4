import Verif.Props.CheckedDump
/-!
# C69: what the validation level means for loading
-/

set_option linter.unusedSimpArgs false
set_option linter.unusedVariables false
set_option linter.unusedSectionVars false

namespace Verif.Checked
open Verif.Py Verif.Value Verif.Schema Verif.Json Verif.Level Verif.Substitute Verif.Traverse

/-! ## The specification -/

/-- `o` is subject to the object template `T`: its own, or that of its spec -/
inductive Subject (m : Mem) (o : Nat) (T : V) : Prop where
  | spec {x : EObj} : m[o]? = some x → x.cls = .materialSpec ∨ x.cls = .processSpec ∨ x.cls = .measurementSpec → field m (.ref o) "_template" = T → Subject m o T
  | run {x : EObj} {s : Nat} : m[o]? = some x → x.cls = .processRun ∨ x.cls = .measurementRun → field m (.ref o) "_spec" = .ref s → field m (.ref s) "_template" = T →
      Subject m o T

/-- `a` is one of the attributes of `o` that are checked, kept under the name `n`; its templates are of class `k` -/
inductive Bears (m : Mem) (o : Nat) (a : V) : String → ECls → Prop where
  | property {x : EObj} {l : List V} : m[o]? = some x → x.cls = .materialSpec ∨ x.cls = .measurementRun → field m (.ref o) "_properties" = .list l → a ∈ l →
      Bears m o a "_properties" .propertyTemplate
  | condition {x : EObj} {l : List V} : m[o]? = some x → x.cls = .processSpec ∨ x.cls = .measurementSpec ∨ x.cls = .processRun ∨ x.cls = .measurementRun →
      field m (.ref o) "_conditions" = .list l → a ∈ l → Bears m o a "_conditions" .conditionTemplate
  | parameter {x : EObj} {l : List V} : m[o]? = some x → x.cls = .processSpec ∨ x.cls = .measurementSpec ∨ x.cls = .processRun ∨ x.cls = .measurementRun →
      field m (.ref o) "_parameters" = .list l → a ∈ l → Bears m o a "_parameters" .parameterTemplate

/-- What the attribute `a` says under the name `n`: an attribute speaks for itself, a PropertyAndConditions through its property. Anything else says nothing. -/
inductive Says : V → String → V → Prop where
  | own {t : String} {ns : List String} {vs : List V} {n : String} : t ≠ "property_and_conditions" → Says (.obj t ns vs) n (attr ns vs n)
  | property {ns : List String} {vs : List V} {t' : String} {ns' : List String} {vs' : List V} {n : String} : attr ns vs "property" = .obj t' ns' vs' →
      Says (.obj "property_and_conditions" ns vs) n (attr ns' vs' n)
  | hollow {ns : List String} {vs : List V} {n : String} : (∀ t' ns' vs', attr ns vs "property" ≠ .obj t' ns' vs') → Says (.obj "property_and_conditions" ns vs) n .none
  | other {a : V} {n : String} : (∀ t ns vs, a ≠ .obj t ns vs) → Says a n .none

/-- the entry with the attribute template `t` is about the attribute: they have the same template, or, if the attribute has none, the same name -/
def About (J : Judge) (m : Mem) (a t : V) : Prop :=
  (∃ T, Says a "template" T ∧ T ≠ .none ∧ J.same m T t = true) ∨ (Says a "template" .none ∧ ∃ s, Says a "name" (.str s) ∧ field m t "name" = .str s)

/-- What the entries of an object template ask of an attribute: the first one that is about it decides. Its value is to be within the bounds of the entry, or,
where that has none, within those of the attribute template. If the attribute has no template, no link may come before that entry. -/
def Suits (J : Judge) (m : Mem) (k : ECls) (entries : List V) (a : V) : Prop :=
  ∀ before t b after, entries = before ++ .list [t, b] :: after → (∀ t' b', V.list [t', b'] ∈ before → ¬ About J m a t') →
    (Says a "template" .none → ∃ o, t = .ref o) ∧
    (About J m a t → ∀ v, Says a "value" v → (b ≠ .none → J.within b v = .ok true) ∧ (b = .none → isOf m k t = true → J.within (field m t "_bounds") v = .ok true))

/-- nothing to object to -/
structure Sound (J : Judge) (m : Mem) (u : V) : Prop where
  /-- the value of an attribute is within the bounds of its template -/
  own : ∀ t ns vs o, u = .obj t ns vs → t = "property" ∨ t = "condition" ∨ t = "parameter" → attr ns vs "template" = .ref o → attr ns vs "value" ≠ .none →
    J.within (field m (.ref o) "_bounds") (attr ns vs "value") = .ok true
  /-- the attributes of an object suit its template -/
  listed : ∀ o T a n k, u = .ref o → Subject m o (.ref T) → Bears m o a n k → ∀ l, field m (.ref T) n = .list l → Suits J m k l a
  /-- fractions are between 0 and 1 -/
  fractions : ∀ o x, u = .ref o → m[o]? = some x → x.cls = .ingredientSpec ∨ x.cls = .ingredientRun →
    ∀ n, n = "_mass_fraction" ∨ n = "_volume_fraction" ∨ n = "_number_fraction" → field m u n ≠ .none → J.fraction (field m u n) = .ok true
  /-- there is no absolute quantity -/
  amount : ∀ o x, u = .ref o → m[o]? = some x → x.cls = .ingredientSpec ∨ x.cls = .ingredientRun → field m u "_absolute_quantity" = .none

/-! ## The checks follow it -/

theorem items_mem {v a : V} : a ∈ items v ↔ ∃ l, v = .list l ∧ a ∈ l := by
  cases v <;> simp [items]

theorem says_iff {a v : V} : (Says a "template" v ↔ (view a).1 = v) ∧ (Says a "name" v ↔ (view a).2.1 = v) ∧ (Says a "value" v ↔ (view a).2.2 = v) := by
  by_cases ho : ∃ t ns vs, a = .obj t ns vs
  · obtain ⟨t, ns, vs, rfl⟩ := ho
    by_cases ht : t = "property_and_conditions"
    · subst ht
      by_cases hp : ∃ t' ns' vs', attr ns vs "property" = .obj t' ns' vs'
      · obtain ⟨t', ns', vs', hp⟩ := hp
        have key : ∀ n, Says (.obj "property_and_conditions" ns vs) n v ↔ attr ns' vs' n = v := by
          intro n
          constructor
          · intro h
            cases h with
            | own h => exact absurd rfl h
            | property h => rw [hp] at h; cases h; rfl
            | hollow h => exact absurd hp (h _ _ _)
            | other h => exact absurd rfl (h _ _ _)
          · rintro rfl; exact .property hp
        simp only [key, view, hp, if_true, and_self]
      · have hp' : ∀ t' ns' vs', attr ns vs "property" ≠ .obj t' ns' vs' := fun t' ns' vs' h => hp ⟨_, _, _, h⟩
        have key : ∀ n, Says (.obj "property_and_conditions" ns vs) n v ↔ .none = v := by
          intro n
          constructor
          · intro h
            cases h with
            | own h => exact absurd rfl h
            | property h => exact absurd h (hp' _ _ _)
            | hollow h => rfl
            | other h => rfl
          · rintro rfl; exact .hollow hp'
        have hv : view (.obj "property_and_conditions" ns vs) = (.none, .none, .none) := by
          simp only [view, if_true]
          try split
          all_goals first | rfl | (rename_i h; exact absurd h (hp' _ _ _))
        simp only [key, hv, and_self]
    · have key : ∀ n, Says (.obj t ns vs) n v ↔ attr ns vs n = v := by
        intro n
        constructor
        · intro h
          cases h with
          | own h => rfl
          | property h => exact absurd rfl ht
          | hollow h => exact absurd rfl ht
          | other h => exact absurd rfl (h _ _ _)
        · rintro rfl; exact .own ht
      simp only [key, view, ht, if_false, and_self]
  · have ho' : ∀ t ns vs, a ≠ .obj t ns vs := fun t ns vs h => ho ⟨_, _, _, h⟩
    have key : ∀ n, Says a n v ↔ .none = v := by
      intro n
      constructor
      · intro h
        cases h with
        | own h => exact absurd rfl (ho' _ _ _)
        | property h => exact absurd rfl (ho' _ _ _)
        | hollow h => rfl
        | other h => rfl
      · rintro rfl; exact .other ho'
    have hv : view a = (.none, .none, .none) := by
      cases a <;> first | rfl | exact absurd rfl (ho' _ _ _)
    simp only [key, hv, and_self]

theorem about_iff {J : Judge} {m : Mem} {a t : V} : About J m a t ↔
    ((view a).1 ≠ .none ∧ J.same m (view a).1 t = true) ∨ ((view a).1 = .none ∧ ∃ s, (view a).2.1 = .str s ∧ field m t "name" = .str s) := by
  unfold About
  simp only [says_iff.1, says_iff.2.1, exists_eq_left']

/-- `Suits`, in terms of `view` -/
def SuitsView (J : Judge) (m : Mem) (k : ECls) (entries : List V) (a : V) : Prop :=
  ∀ before t b after, entries = before ++ .list [t, b] :: after → (∀ t' b', V.list [t', b'] ∈ before → ¬ About J m a t') →
    ((view a).1 = .none → ∃ o, t = .ref o) ∧
    (About J m a t → (b ≠ .none → J.within b (view a).2.2 = .ok true) ∧ (b = .none → isOf m k t = true → J.within (field m t "_bounds") (view a).2.2 = .ok true))

theorem suits_iff {J : Judge} {m : Mem} {k : ECls} {entries : List V} {a : V} : Suits J m k entries a ↔ SuitsView J m k entries a := by
  unfold Suits SuitsView
  simp only [says_iff.1, says_iff.2.2, forall_eq']

theorem about_name {J : Judge} {m : Mem} {a : V} (h : (view a).1 = .none) (o : Nat) : About J m a (.ref o) ↔ nameIs (view a).2.1 (field m (.ref o) "name") = true := by
  rw [about_iff]
  simp only [h, ne_eq, not_true_eq_false, false_and, false_or, true_and]
  cases (view a).2.1 <;> cases field m (.ref o) "name" <;> simp [nameIs]
  exact ⟨fun h => h.symm, fun h => h.symm⟩

theorem about_template {J : Judge} {m : Mem} {a t : V} (h : (view a).1 ≠ .none) : About J m a t ↔ J.same m (view a).1 t = true := by
  rw [about_iff]
  simp [h]

theorem entry_some {e a b : V} : entry e = some (a, b) ↔ e = .list [a, b] := by
  constructor
  · intro h
    unfold entry at h
    split at h
    · cases h; rfl
    · cases h
  · rintro rfl; rfl

theorem validate_view (J : Judge) (m : Mem) (k : ECls) (es : List V) (a : V) : validate J m k es a = .ok true ↔ SuitsView J m k es a := by
  unfold validate
  induction es with
  | nil =>
    simp only [applies, true_iff]
    intro before t b after h
    simp at h
  | cons e es ih =>
    cases he : entry e with
    | none =>
      simp only [applies, he]
      rw [ih]
      constructor
      · intro h before t b after e1 e2
        cases before with
        | nil =>
          simp only [List.nil_append, List.cons.injEq] at e1
          rw [e1.1] at he
          simp [entry] at he
        | cons p before =>
          simp only [List.cons_append, List.cons.injEq] at e1
          exact h before t b after e1.2 (fun t' b' hm => e2 t' b' (List.mem_cons_of_mem _ hm))
      · intro h before t b after e1 e2
        refine h (e :: before) t b after (by rw [e1]; rfl) ?_
        intro t' b' hm
        rcases List.mem_cons.1 hm with rfl | hm
        · simp [entry] at he
        · exact e2 t' b' hm
    | some p =>
      obtain ⟨t, b⟩ := p
      obtain rfl := entry_some.1 he
      have skip : ¬ About J m a t → ((view a).1 = .none → ∃ o, t = .ref o) → (SuitsView J m k es a ↔ SuitsView J m k (.list [t, b] :: es) a) := by
        intro hna hl
        constructor
        · intro h before t2 b2 after e1 e2
          cases before with
          | nil =>
            simp only [List.nil_append, List.cons.injEq, V.list.injEq, and_true] at e1
            obtain ⟨⟨rfl, rfl⟩, _⟩ := e1
            exact ⟨hl, fun h => absurd h hna⟩
          | cons p before =>
            simp only [List.cons_append, List.cons.injEq] at e1
            exact h before t2 b2 after e1.2 (fun t' b' hm => e2 t' b' (List.mem_cons_of_mem _ hm))
        · intro h before t2 b2 after e1 e2
          refine h (.list [t, b] :: before) t2 b2 after (by rw [e1]; rfl) ?_
          intro t' b' hm
          rcases List.mem_cons.1 hm with e | hm
          · simp only [V.list.injEq, List.cons.injEq, and_true] at e
            rw [e.1]; exact hna
          · exact e2 t' b' hm
      have take : About J m a t → ((view a).1 = .none → ∃ o, t = .ref o) → (SuitsView J m k (.list [t, b] :: es) a ↔
          (b ≠ .none → J.within b (view a).2.2 = .ok true) ∧ (b = .none → isOf m k t = true → J.within (field m t "_bounds") (view a).2.2 = .ok true)) := by
        intro ha hl
        constructor
        · intro h
          exact (h [] t b es rfl (by simp)).2 ha
        · intro h before t2 b2 after e1 e2
          cases before with
          | nil =>
            simp only [List.nil_append, List.cons.injEq, V.list.injEq, and_true] at e1
            obtain ⟨⟨rfl, rfl⟩, _⟩ := e1
            exact ⟨hl, fun _ => h⟩
          | cons p before =>
            simp only [List.cons_append, List.cons.injEq] at e1
            exact absurd ha (e2 t b (by rw [e1.1]; simp))
      have found : (if b ≠ .none then J.within b (view a).2.2 else if isOf m k t = true then J.within (field m t "_bounds") (view a).2.2 else .ok true) = .ok true ↔
          (b ≠ .none → J.within b (view a).2.2 = .ok true) ∧ (b = .none → isOf m k t = true → J.within (field m t "_bounds") (view a).2.2 = .ok true) := by
        by_cases hb : b = .none
        · simp only [hb, ne_eq, not_true_eq_false, if_false, false_implies, true_and, true_implies]
          by_cases hi : isOf m k t = true
          · simp [hi]
          · simp [hi]
        · simp [hb]
      simp only [applies, entry]
      by_cases hv : (view a).1 = .none
      · simp only [hv, ne_eq, not_true_eq_false, if_false]
        rw [hv] at ih
        cases t with
        | ref o =>
          simp only
          by_cases hn : nameIs (view a).2.1 (field m (.ref o) "name") = true
          · simp only [hn, if_true]
            rw [take ((about_name hv o).2 hn) (fun _ => ⟨_, rfl⟩)]
            exact found
          · simp only [hn]
            rw [← skip (fun h => hn ((about_name hv o).1 h)) (fun _ => ⟨_, rfl⟩)]
            exact ih
        | _ =>
          simp only [reduceCtorEq, false_iff]
          intro h
          obtain ⟨o, e⟩ := (h [] _ b es rfl (by simp)).1 hv
          cases e
      · simp only [ne_eq, hv, not_false_eq_true, if_true]
        by_cases hs : J.same m (view a).1 t = true
        · simp only [hs, if_true]
          rw [take ((about_template hv).2 hs) (fun h => absurd h hv)]
          exact found
        · simp only [hs]
          rw [← skip (fun h => hs ((about_template hv).1 h)) (fun h => absurd h hv)]
          exact ih

theorem verdict_fatal {r : Except PyErr Bool} : verdict .fatal r = .ok () ↔ r = .ok true := by
  cases r with
  | error e => simp [verdict]
  | ok b => cases b <;> simp [verdict]

theorem subject_iff {m : Mem} {o : Nat} {x : EObj} (hx : m[o]? = some x) {T : Nat} : templateOf m x.cls (.ref o) = .ref T ↔ Subject m o (.ref T) := by
  constructor
  · intro h
    cases hc : x.cls <;> simp only [templateOf, hc, reduceCtorEq] at h
    case processRun | measurementRun =>
      by_cases hs : ∃ s, field m (.ref o) "_spec" = .ref s
      · obtain ⟨s, hs⟩ := hs
        rw [hs] at h
        exact .run hx (by simp [hc]) hs h
      · exfalso
        generalize field m (.ref o) "_spec" = w at *
        cases w <;> first | exact hs ⟨_, rfl⟩ | (simp [field] at h)
    all_goals exact .spec hx (by simp [hc]) h
  · intro h
    cases h with
    | spec hx' hc h =>
      rw [hx] at hx'; cases hx'
      rcases hc with hc | hc | hc <;> simp only [templateOf, hc, h]
    | run hx' hc h1 h2 =>
      rw [hx] at hx'; cases hx'
      rcases hc with hc | hc <;> simp only [templateOf, hc, h1, h2]

theorem bears_iff {m : Mem} {o : Nat} {x : EObj} (hx : m[o]? = some x) {a : V} {n : String} {k : ECls} :
    ((n, k) ∈ checkedLists x.cls ∧ a ∈ items (field m (.ref o) n)) ↔ Bears m o a n k := by
  constructor
  · rintro ⟨h, ha⟩
    obtain ⟨l, e, hal⟩ := items_mem.1 ha
    cases hc : x.cls <;> simp only [checkedLists, hc, List.mem_cons, Prod.mk.injEq, List.not_mem_nil, or_false] at h
    case materialSpec =>
      obtain ⟨rfl, rfl⟩ := h
      exact .property hx (by simp [hc]) e hal
    case measurementRun =>
      rcases h with ⟨rfl, rfl⟩ | ⟨rfl, rfl⟩ | ⟨rfl, rfl⟩
      · exact .property hx (by simp [hc]) e hal
      · exact .condition hx (by simp [hc]) e hal
      · exact .parameter hx (by simp [hc]) e hal
    all_goals
      rcases h with ⟨rfl, rfl⟩ | ⟨rfl, rfl⟩
      · exact .parameter hx (by simp [hc]) e hal
      · exact .condition hx (by simp [hc]) e hal
  · intro h
    cases h with
    | property hx' hc e ha =>
      rw [hx] at hx'; cases hx'
      exact ⟨by rcases hc with hc | hc <;> simp [checkedLists, hc], items_mem.2 ⟨_, e, ha⟩⟩
    | condition hx' hc e ha =>
      rw [hx] at hx'; cases hx'
      exact ⟨by rcases hc with hc | hc | hc | hc <;> simp [checkedLists, hc], items_mem.2 ⟨_, e, ha⟩⟩
    | parameter hx' hc e ha =>
      rw [hx] at hx'; cases hx'
      exact ⟨by rcases hc with hc | hc | hc | hc <;> simp [checkedLists, hc], items_mem.2 ⟨_, e, ha⟩⟩

theorem suits_nil {J : Judge} {m : Mem} {k : ECls} {a : V} : Suits J m k [] a := by
  intro before t b after h
  simp at h

theorem quantities_iff {c : ECls} : hasQuantities c = true ↔ c = .ingredientSpec ∨ c = .ingredientRun := by
  cases c <;> simp [hasQuantities]

/-- the check of one attribute follows the specification -/
theorem validate_iff (J : Judge) (m : Mem) (k : ECls) (es : List V) (a : V) : validate J m k es a = .ok true ↔ Suits J m k es a := by
  rw [suits_iff, validate_view]

/-- the checks at FATAL follow the specification -/
theorem guard_fatal (J : Judge) (m : Mem) (u : V) : guard J .fatal m u = .ok () ↔ Sound J m u := by
  by_cases hr : ∃ o, u = .ref o
  · obtain ⟨o, rfl⟩ := hr
    simp only [guard]
    cases hx : m[o]? with
    | none =>
      simp only [true_iff]
      refine ⟨fun _ _ _ _ h => by simp at h, ?_, ?_, ?_⟩
      · intro o' T a n k e hs
        cases e
        cases hs with
        | spec hx' _ _ => rw [hx] at hx'; cases hx'
        | run hx' _ _ _ => rw [hx] at hx'; cases hx'
      · intro o' x e hx'; cases e; rw [hx] at hx'; cases hx'
      · intro o' x e hx'; cases e; rw [hx] at hx'; cases hx'
    | some x =>
      simp only
      rw [runAll_ok]
      simp only [List.mem_append]
      constructor
      · intro h
        refine ⟨fun _ _ _ _ h => by simp at h, ?_, ?_, ?_⟩
        · intro o' T a n k e hs hb l hl
          cases e
          obtain ⟨h1, h2⟩ := (bears_iff hx).2 hb
          have ht := (subject_iff hx).2 hs
          rw [← validate_iff]
          have := h (verdict .fatal (validate J m k (items (field m (.ref T) n)) a)) (.inl (by
            unfold listGuards
            simp only [ht]
            exact List.mem_flatMap.2 ⟨(n, k), h1, List.mem_map.2 ⟨a, h2, rfl⟩⟩))
          rw [verdict_fatal, hl] at this
          exact this
        · intro o' x' e hx' hc n hn hne
          cases e
          rw [hx] at hx'; cases hx'
          have := h (verdict .fatal (J.fraction (field m (.ref o) n))) (.inr (by
            unfold quantityGuards
            rw [if_pos (quantities_iff.2 hc)]
            apply List.mem_append_left
            refine List.mem_map.2 ⟨n, by rcases hn with rfl | rfl | rfl <;> simp, by rw [if_neg hne]⟩))
          exact verdict_fatal.1 this
        · intro o' x' e hx' hc
          cases e
          rw [hx] at hx'; cases hx'
          by_cases hne : field m (.ref o) "_absolute_quantity" = .none
          · exact hne
          · exfalso
            have := h (amountGuard J .fatal (field m (.ref o) "_absolute_quantity")) (.inr (by
              unfold quantityGuards
              rw [if_pos (quantities_iff.2 hc)]
              apply List.mem_append_right
              rw [if_neg hne]
              exact List.mem_cons_self ..))
            unfold amountGuard at this
            split at this <;> simp_all
      · intro h g hg
        rcases hg with hg | hg
        · unfold listGuards at hg
          split at hg
          · rename_i T ht
            obtain ⟨p, hp, hg⟩ := List.mem_flatMap.1 hg
            obtain ⟨a, ha, rfl⟩ := List.mem_map.1 hg
            rw [verdict_fatal, validate_iff]
            have hb := (bears_iff hx).1 ⟨hp, ha⟩
            have hs := (subject_iff hx).1 ht
            cases hl : field m (.ref T) p.1 with
            | list l => exact h.listed o T a p.1 p.2 rfl hs hb l hl
            | _ => exact suits_nil
          · simp at hg
        · unfold quantityGuards at hg
          split at hg
          · rename_i hc
            have hc := quantities_iff.1 hc
            rcases List.mem_append.1 hg with hg | hg
            · obtain ⟨n, hn, rfl⟩ := List.mem_map.1 hg
              by_cases hne : field m (.ref o) n = .none
              · rw [if_pos hne]
              · rw [if_neg hne, verdict_fatal]
                exact h.fractions o x rfl hx hc n (by simpa using hn) hne
            · simp only [List.mem_cons, List.not_mem_nil, or_false] at hg
              rw [if_pos (h.amount o x rfl hx hc)] at hg
              exact hg
          · simp at hg
  · by_cases ho : ∃ t ns vs, u = .obj t ns vs
    · obtain ⟨t, ns, vs, rfl⟩ := ho
      simp only [guard]
      constructor
      · intro h
        refine ⟨?_, fun _ _ _ _ _ e => by simp at e, fun _ _ e => by simp at e, fun _ _ e => by simp at e⟩
        intro t' ns' vs' o e ht htmp hv
        cases e
        rw [if_pos (by simpa [attributeTypes] using ht)] at h
        simp only [attrGuard, htmp, if_neg hv] at h
        exact verdict_fatal.1 h
      · intro h
        split
        · rename_i ht
          unfold attrGuard
          split
          · rename_i o htmp
            split
            · rfl
            · rename_i hv
              rw [verdict_fatal]
              exact h.own t ns vs o rfl (by simpa [attributeTypes] using ht) htmp hv
          · rfl
        · rfl
    · have hg : guard J .fatal m u = .ok () := by
        cases u <;> first | rfl | exact absurd ⟨_, rfl⟩ hr | exact absurd ⟨_, _, _, rfl⟩ ho
      simp only [hg, true_iff]
      refine ⟨fun _ _ _ _ e => absurd ⟨_, _, _, e⟩ ho, fun _ _ _ _ _ e => absurd ⟨_, e⟩ hr, fun _ _ e => absurd ⟨_, e⟩ hr, fun _ _ e => absurd ⟨_, e⟩ hr⟩

end Verif.Checked
