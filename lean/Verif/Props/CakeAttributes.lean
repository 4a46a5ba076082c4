import Verif.Model.CakeAttributes
/-!
# C80: the attributes and the quantities of the cake are valid

The bounds that a value is compared with are computed here once more, as a list, and the value is compared with each.
-/

namespace Verif.Cake
open Verif.Py Verif.Bounds Verif.Level Verif.Template

/-- what the template of an object lists -/
def entriesOf (owner : Option String) (k : AKind) : List (Entry Kitchen Rat String) := match objectTemplate k owner with
  | .obj l => l
  | _ => []

/-- the entry with the template of an attribute, or, without one, with its name -/
def entryOf (t : Option (ATmpl Kitchen Rat String)) (name : String) (l : List (Entry Kitchen Rat String)) : Option (Entry Kitchen Rat String) := match t with
  | some t => l.find? fun e => sameTemplate (.tmpl t) e.1
  | none => l.find? fun e => match e.1 with | .tmpl u => u.name == name | .link .. => false

/-- the bounds of an entry: its own, or else those of its template -/
def entryBounds : Option (Entry Kitchen Rat String) → List Lim
  | some (_, some b) => [b]
  | some (.tmpl u, none) => [u.bounds]
  | _ => []

/-- there are links or templates of another kind -/
def foreign (k : AKind) (l : List (Entry Kitchen Rat String)) : Bool := l.any fun e => match e.1 with | .tmpl u => decide (u.kind ≠ k) | .link .. => true

/-- the bounds of the template of an attribute and those that the template of the object has for it -/
def limitsOf (owner : Option String) (k : AKind) (name : String) (template : Option String) : Option (List Lim) :=
  let t := template.bind attributeTemplate
  if template.isSome && (t.isNone || t.any (·.kind ≠ k)) then none
  else if foreign k (entriesOf owner k) then none
  else some (t.toList.map (·.bounds) ++ entryBounds (entryOf t name (entriesOf owner k)))

theorem findByName_eq (name : String) (l : List (Entry Kitchen Rat String)) (h : foreign k l = false) : findByName name l = .ok (entryOf none name l) := by
  unfold foreign at h
  unfold entryOf
  induction l with
  | nil => rfl
  | cons e l ih =>
    obtain ⟨r, b⟩ := e
    cases r with
    | link s i => simp at h
    | tmpl t =>
      simp only [List.any_cons, Bool.or_eq_false_iff] at h
      simp only [findByName, List.find?_cons]
      by_cases hn : name = t.name
      · simp [hn]
      · have : (t.name == name) = false := by simp; exact fun h => hn h.symm
        simp [hn, this, ih h.2]

theorem check_ok (level : Level) (b : Lim) (v : Val) (h : contains kitchen b (.value v) = .ok true) : Attr.check kitchen level b v = (0, .ok ()) := by
  unfold Attr.check
  split
  · rfl
  · rw [h]

/-- **C80**: the units of the demo convert there and back, and preserve order. -/
theorem C80_units : kitchen.Lawful where
  of_to u x := by cases u <;> simp only [kitchen] <;> grind
  to_of u x := by cases u <;> simp only [kitchen] <;> grind
  mono u x y h := by cases u <;> simp only [kitchen] <;> grind

/-- 350 °F is 449.8 K -/
example : kitchen.toRoot .fahrenheit 350 = 26989 / 60 := by decide +kernel

/-- an attribute whose value is within those bounds is constructed and added without a warning -/
theorem add_of_limits (level : Level) (o : Option String) (k : AKind) (name : String) (t : Option String) (v : Val) (l : List Lim)
    (hl : limitsOf o k name t = some l) (hv : ∀ b ∈ l, contains kitchen b (.value v) = .ok true) : (Owned.mk o k name t v).add level = (0, .ok ()) := by
  unfold limitsOf at hl
  simp only at hl
  split at hl
  · simp at hl
  · rename_i h1
    split at hl
    · simp at hl
    · rename_i h2
      simp only [Option.some.injEq] at hl
      -- the constructor
      have hmk : ∃ a, Attr.mk kitchen level (.value v) (Owned.mk o k name t v).argument = (0, .ok a) := by
        cases t with
        | none => exact ⟨_, rfl⟩
        | some key =>
          cases hk : attributeTemplate key with
          | none => simp [hk] at h1
          | some u =>
            have hu : u.kind = k := by simpa [hk] using h1
            have := hv u.bounds (by rw [← hl]; simp [hk])
            simp [Owned.argument, hk, hu, Attr.mk, Attr.setValue, Attr.setTemplate, check_ok level _ v this]
      obtain ⟨a, ha⟩ := hmk
      unfold Owned.add
      simp only
      rw [ha]
      simp only
      -- the check against the template of the object
      unfold templateCheck
      by_cases hi : level = .ignore
      · simp [hi]
      · simp only [hi, if_false]
        cases hobj : objectTemplate k o with
        | none => rfl
        | link => rfl
        | obj entries =>
          have he : entriesOf o k = entries := by simp [entriesOf, hobj]
          rw [he] at hl h2
          have hval : validate kitchen sameTemplate k entries ⟨(t.bind attributeTemplate).map .tmpl, name, some v⟩ = .ok true := by
            unfold validate
            cases ht : t.bind attributeTemplate with
            | none =>
              simp only [Option.map_none]
              rw [findByName_eq (k := k) name entries (by simpa using h2)]
              rw [ht] at hl
              generalize hf : entryOf none name entries = f at hl ⊢
              match f, hf with
              | none, _ => rfl
              | some (_, some b), _ => exact hv b (by rw [← hl]; simp [entryBounds])
              | some (.link .., none), _ => rfl
              | some (.tmpl u, none), _ =>
                simp only
                split
                · exact hv u.bounds (by rw [← hl]; simp [entryBounds])
                · rfl
            | some w =>
              simp only [Option.map_some]
              rw [ht] at hl
              generalize hf : entryOf (some w) name entries = f at hl
              simp only [entryOf] at hf
              rw [hf]
              match f, hf with
              | none, _ => rfl
              | some (_, some b), _ => exact hv b (by rw [← hl]; simp [entryBounds])
              | some (.link .., none), _ => rfl
              | some (.tmpl u, none), _ =>
                simp only
                split
                · exact hv u.bounds (by rw [← hl]; simp [entryBounds])
                · rfl
          simp only [hval]

/-- whether the value is within those bounds -/
def within (x : Owned) : Bool := match limitsOf x.owner x.kind x.name x.template with
  | none => false
  | some l => l.all fun b => decide (contains kitchen b (.value x.value) = .ok true)

theorem add_of_within (level : Level) (x : Owned) (h : within x = true) : x.add level = (0, .ok ()) := by
  unfold within at h
  split at h
  · simp at h
  · rename_i l hl
    exact add_of_limits level _ _ _ _ _ l hl (by simpa using h)

theorem mass_within (r : Rat) (h : 0 ≤ r ∧ r < 1) : contains kitchen (.real ⟨1 / 1000, 10000, .gram⟩) (.value (sampleMass r)) = .ok true := by
  simp [contains, baseContains, toBounds, sampleMass, mkReal, RealRaw.init, RealRaw.setUnits, RealRaw.setLower, RealRaw.setUpper, RealRaw.get?, Except.map, containsB, RealB.convert,
    convertUnits, kitchen]
  grind

theorem mass_limits (o : String) (h : o = "Nutritional Analysis" ∨ o = "Elemental Analysis") : limitsOf (some o) .condition "Sample Mass" (some "Sample Mass") =
    some [.real ⟨1 / 1000, 10000, .gram⟩, .real ⟨1 / 1000, 10000, .gram⟩] := by
  rcases h with rfl | rfl <;> decide +kernel

theorem add_mass (level : Level) (o : String) (h : o = "Nutritional Analysis" ∨ o = "Elemental Analysis") (r : Rat) (hr : 0 ≤ r ∧ r < 1) :
    (Owned.mk (some o) .condition "Sample Mass" (some "Sample Mass") (sampleMass r)).add level = (0, .ok ()) :=
  add_of_limits level _ _ _ _ _ _ (mass_limits o h) (by simp [mass_within r hr])

/-- only the components of a composition matter to `contains` -/
theorem contains_composition (b : Lim) (q q' : List (String × Rat)) (h : q.map Prod.fst = q'.map Prod.fst) :
    contains kitchen b (.value (.nominalComposition q : Val)) = contains kitchen b (.value (.nominalComposition q')) := by
  have : (q.map fun e => Elem.str e.1) = q'.map fun e => Elem.str e.1 := by
    have := congrArg (List.map Elem.str) h
    simpa [List.map_map, Function.comp_def] using this
  simp [contains, baseContains, toBounds, this]

/-- **C80**: whatever is drawn, and at every validation level, no attribute of the cake raises or logs a warning when it is made and when it is added. -/
theorem C80_attributes (level : Level) (r : Nat → Rat) (hr : ∀ k, 0 ≤ r k ∧ r k < 1) (x : Owned) (hx : x ∈ specAttributes ++ runAttributes r) :
    x.add level = (0, .ok ()) := by
  rw [List.mem_append] at hx
  rcases hx with hx | hx
  · have : specAttributes.all within = true := by decide +kernel
    exact add_of_within level x (List.all_eq_true.mp this x hx)
  · revert x
    simp only [runAttributes, List.forall_mem_cons]
    refine ⟨?_, ?_, ?_, ?_, ?_, ?_, ?_, ?_, ?_, ?_, ?_, ?_, ?_, ?_, ?_, ?_, ?_, ?_, ?_, ?_, by simp⟩
    case refine_9 =>
      refine add_of_limits level _ _ _ _ _ ((limitsOf (some "Nutritional Analysis") .property "Nutritional Information" (some "Nutritional Information")).getD []) (by decide +kernel) ?_
      intro b hb
      refine (contains_composition b _ [("dietary-fiber", 0), ("sugars", 0), ("other-carbohydrate", 0), ("protein", 0), ("other", 0)] rfl).trans ?_
      exact (by decide +kernel : ∀ b ∈ (limitsOf (some "Nutritional Analysis") .property "Nutritional Information" (some "Nutritional Information")).getD [],
        contains kitchen b (.value (.nominalComposition [("dietary-fiber", 0), ("sugars", 0), ("other-carbohydrate", 0), ("protein", 0), ("other", 0)] : Val)) = .ok true) b hb
    case refine_10 => exact add_mass level _ (.inl rfl) _ (hr _)
    case refine_15 => exact add_mass level _ (.inr rfl) _ (hr _)
    case refine_19 => exact add_mass level _ (.inr rfl) _ (hr _)
    all_goals exact add_of_within level _ (by decide +kernel)

/-- the attributes one after the other -/
theorem C80_all (level : Level) (r : Nat → Rat) (hr : ∀ k, 0 ≤ r k ∧ r k < 1) : sequence ((specAttributes ++ runAttributes r).map (Owned.add level)) = (0, .ok ()) := by
  have h := C80_attributes level r hr
  generalize specAttributes ++ runAttributes r = l at h
  induction l with
  | nil => rfl
  | cons x l ih => simp [sequence, h x (by simp), ih fun y hy => h y (by simp [hy])]

deriving instance DecidableEq for ATmpl
deriving instance DecidableEq for Ref
deriving instance DecidableEq for OTmpl

/-- the kelvins of a temperature in °F -/
def kelvins (q : Rat) : Rat := (q - 32) * (5 / 9) + 273.15

theorem contains_nominal (lo hi q : Rat) (u w : Kitchen) (h : kitchen.root u = kitchen.root w) : contains kitchen (.real ⟨lo, hi, u⟩) (.value (.nominalReal (some q) w : Val)) =
    .ok (decide (kitchen.toRoot u lo ≤ kitchen.toRoot w q ∧ kitchen.toRoot w q ≤ kitchen.toRoot u hi)) := by
  have hb' : mkReal (some q) (some q) w = .ok ⟨q, q, w⟩ := by
    simp [mkReal, RealRaw.init, RealRaw.setUnits, RealRaw.setLower, RealRaw.setUpper, RealRaw.get?]
  have hi' : ∀ x y, kitchen.toRoot w x ≤ kitchen.toRoot w y ↔ x ≤ y := fun x y => ⟨fun h => by cases w <;> simp only [kitchen] at h <;> grind, C80_units.mono w x y⟩
  by_cases hu : u = w
  · subst hu
    simp [contains, baseContains, toBounds, hb', Except.map, containsB, RealB.convert, convertUnits, hi', Bool.decide_and]
  · have hc : ∀ x, kitchen.toRoot w (kitchen.ofRoot w (kitchen.toRoot u x)) = kitchen.toRoot u x := fun x => C80_units.to_of w _
    simp only [contains, baseContains, toBounds, hb', Except.map, containsB, RealB.convert, convertUnits, hu, if_false, h, ne_eq, not_true_eq_false, ge_iff_le]
    have e1 : (kitchen.ofRoot w (kitchen.toRoot u lo) ≤ q) ↔ kitchen.toRoot u lo ≤ kitchen.toRoot w q := by rw [← hi', hc]
    have e2 : (q ≤ kitchen.ofRoot w (kitchen.toRoot u hi)) ↔ kitchen.toRoot w q ≤ kitchen.toRoot u hi := by rw [← hi', hc]
    simp only [e1, e2, Bool.decide_and]

/-- **C80 (the oven)**: exactly what is within 100 °F and 550 °F is accepted as setting; beyond there is a warning, and two of them beyond what the attribute template allows. -/
theorem C80_oven (level : Level) (q : Rat) : (Owned.mk (some "Baking") .parameter "Oven temperature setting" (some "Oven temperature setting") (.nominalReal (some q) .fahrenheit)).add level =
    match level with
    | .ignore => (0, .ok ())
    | .warning => (if 100 ≤ q ∧ q ≤ 550 then 0 else if 0 ≤ kelvins q ∧ kelvins q ≤ 2000 then 1 else 2, .ok ())
    | .fatal => (0, if 100 ≤ q ∧ q ≤ 550 then .ok () else .error .valueError) := by
  have ht : (Owned.mk (some "Baking") .parameter "Oven temperature setting" (some "Oven temperature setting") (.nominalReal (some q) .fahrenheit)).argument =
      .tmpl (.real ⟨0, 2000, .kelvin⟩) := rfl
  have h1 : contains kitchen (.real ⟨0, 2000, .kelvin⟩) (.value (.nominalReal (some q) .fahrenheit : Val)) = .ok (decide (0 ≤ kelvins q ∧ kelvins q ≤ 2000)) := by
    rw [contains_nominal _ _ _ .kelvin .fahrenheit rfl]
    have : kitchen.toRoot .fahrenheit q = kelvins q := by simp only [kitchen, kelvins]; grind
    rw [this]
    rfl
  have h2 : contains kitchen (.real ⟨100, 550, .fahrenheit⟩) (.value (.nominalReal (some q) .fahrenheit : Val)) = .ok (decide (100 ≤ q ∧ q ≤ 550)) := by
    rw [contains_nominal _ _ _ .fahrenheit .fahrenheit rfl]
    congr 2
    simp only [kitchen]
    grind
  have ho : objectTemplate .parameter (some "Baking") =
      .obj [(.tmpl ⟨2, .parameter, "Oven temperature setting", .real ⟨0, 2000, .kelvin⟩⟩, some (.real ⟨100, 550, .fahrenheit⟩))] := by decide +kernel
  have ha : (some "Oven temperature setting").bind attributeTemplate = some ⟨2, .parameter, "Oven temperature setting", .real ⟨0, 2000, .kelvin⟩⟩ := rfl
  have hv : validate kitchen sameTemplate .parameter [(.tmpl ⟨2, .parameter, "Oven temperature setting", .real ⟨0, 2000, .kelvin⟩⟩, some (.real ⟨100, 550, .fahrenheit⟩))]
      ⟨some (.tmpl ⟨2, .parameter, "Oven temperature setting", .real ⟨0, 2000, .kelvin⟩⟩), "Oven temperature setting", some (.nominalReal (some q) .fahrenheit : Val)⟩ =
      .ok (decide (100 ≤ q ∧ q ≤ 550)) := by
    rw [← h2]; rfl
  have h3 : (100 ≤ q ∧ q ≤ 550) → (0 ≤ kelvins q ∧ kelvins q ≤ 2000) := by unfold kelvins; grind
  unfold Owned.add
  rw [ht]
  simp only [ho, ha, Option.map_some]
  cases level
  · by_cases ha : 100 ≤ q ∧ q ≤ 550 <;> by_cases hb : 0 ≤ kelvins q ∧ kelvins q ≤ 2000 <;>
      simp_all [Attr.mk, Attr.setValue, Attr.setTemplate, Attr.check, templateCheck]
  · by_cases ha : 100 ≤ q ∧ q ≤ 550 <;> by_cases hb : 0 ≤ kelvins q ∧ kelvins q ≤ 2000 <;>
      simp_all [Attr.mk, Attr.setValue, Attr.setTemplate, Attr.check, templateCheck]
    rw [if_neg (by grind), if_neg (by grind)]
  · by_cases ha : 100 ≤ q ∧ q ≤ 550 <;> by_cases hb : 0 ≤ kelvins q ∧ kelvins q ≤ 2000 <;>
      simp_all [Attr.mk, Attr.setValue, Attr.setTemplate, Attr.check, templateCheck]

/-- **C80 (found by name)**: the measured oven temperature has no template, and is checked by its name against 0 °F to 700 °F. -/
theorem C80_measured (level : Level) (q : Rat) : (Owned.mk (some "Baking") .condition "Oven temperature" none (.nominalReal (some q) .fahrenheit)).add level =
    match level with
    | .ignore => (0, .ok ())
    | .warning => (if 0 ≤ q ∧ q ≤ 700 then 0 else 1, .ok ())
    | .fatal => (0, if 0 ≤ q ∧ q ≤ 700 then .ok () else .error .valueError) := by
  have h2 : contains kitchen (.real ⟨0, 700, .fahrenheit⟩) (.value (.nominalReal (some q) .fahrenheit : Val)) = .ok (decide (0 ≤ q ∧ q ≤ 700)) := by
    rw [contains_nominal _ _ _ .fahrenheit .fahrenheit rfl]
    congr 2
    simp only [kitchen]
    grind
  have ho : objectTemplate .condition (some "Baking") =
      .obj [(.tmpl ⟨3, .condition, "Oven temperature", .real ⟨0, 2000, .kelvin⟩⟩, some (.real ⟨0, 700, .fahrenheit⟩))] := by decide +kernel
  have hv : validate kitchen sameTemplate .condition [(.tmpl ⟨3, .condition, "Oven temperature", .real ⟨0, 2000, .kelvin⟩⟩, some (.real ⟨0, 700, .fahrenheit⟩))]
      ⟨none, "Oven temperature", some (.nominalReal (some q) .fahrenheit : Val)⟩ = .ok (decide (0 ≤ q ∧ q ≤ 700)) := by
    rw [← h2]; simp [validate, findByName, valueArg]
  have ht : (Owned.mk (some "Baking") .condition "Oven temperature" none (.nominalReal (some q) .fahrenheit)).argument = .none := rfl
  unfold Owned.add
  rw [ht]
  simp only [ho, Option.bind_none, Option.map_none]
  cases level <;> by_cases ha : 0 ≤ q ∧ q ≤ 700 <;> simp_all [Attr.mk, Attr.setValue, Attr.setTemplate, templateCheck]

/-- **C80 (the class)**: at every level a template of another class raises TypeError. -/
theorem C80_class (level : Level) (o : Option String) (k : AKind) (name key : String) (t : ATmpl Kitchen Rat String) (ht : attributeTemplate key = some t) (hk : t.kind ≠ k) (v : Val) :
    (Owned.mk o k name (some key) v).add level = (0, .error .typeError) := by
  simp [Owned.add, Owned.argument, ht, hk, Attr.mk, Attr.setValue, Attr.setTemplate]

/-- the bounds matter: an oven at 600 °F is warned of, or refused, though the attribute template allows it -/
example : (Owned.add .warning ⟨some "Baking", .parameter, "Oven temperature setting", some "Oven temperature setting", .nominalReal (some 600) .fahrenheit⟩) = (1, .ok ()) := by
  decide +kernel
example : (Owned.add .fatal ⟨some "Baking", .parameter, "Oven temperature setting", some "Oven temperature setting", .nominalReal (some 600) .fahrenheit⟩) = (0, .error .valueError) := by
  decide +kernel
example : (Owned.add .ignore ⟨some "Baking", .parameter, "Oven temperature setting", some "Oven temperature setting", .nominalReal (some 600) .fahrenheit⟩) = (0, .ok ()) := by
  decide +kernel
/-- found by its name, without a template of its own -/
example : (Owned.add .fatal ⟨some "Baking", .condition, "Oven temperature", none, .nominalReal (some 701) .fahrenheit⟩) = (0, .error .valueError) := by
  decide +kernel
/-- both the attribute template and the object template warn -/
example : (Owned.add .warning ⟨some "Taste test", .property, "Tastiness", some "Tastiness", .nominalInteger 11⟩) = (2, .ok ()) := by decide +kernel
example : (Owned.add .ignore ⟨some "Taste test", .condition, "Tastiness", some "Tastiness", .nominalInteger 5⟩) = (0, .error .typeError) := by decide +kernel

/-- **C80**: the object templates accept the attribute templates that they are given, and the bounds beside them, and every one of them is there. -/
theorem C80_templates (key : String) (args : List (AKind × List (Template.Item Kitchen Rat String))) (h : (key, args) ∈ objectTemplates) (k : AKind) :
    ∃ l, attributeList k args = .ok l ∧ (l.filterMap asEntry).length = ((Dict.get? args k).getD []).length := by
  have : ∀ p ∈ objectTemplates, ∀ k ∈ [AKind.condition, .parameter, .property],
      (match attributeList k p.2 with
        | .error _ => false
        | .ok l => (l.filterMap asEntry).length == ((Dict.get? p.2 k).getD []).length) = true := by decide +kernel
  have := this _ h k (by cases k <;> simp)
  split at this
  · simp at this
  · rename_i l hl
    exact ⟨l, hl, by simpa using this⟩

/-- wider bounds than those of the attribute template would be refused -/
example : (attributeList .condition [(.condition, [listed "Oven temperature" (some (.real ⟨0, 4000, .fahrenheit⟩))])]).toOption.isNone = true := by decide +kernel

/-- **C80 (what is not checked)**: the formulas of salt and of sugar have no template, and none that their object template lists has their name, so any value would be accepted. -/
theorem C80_unchecked_counterexample (level : Level) (v : Val) : (Owned.mk (some "Formulaic Material") .property "Formula" none v).add level = (0, .ok ()) :=
  add_of_limits level _ _ _ _ _ [] (by decide +kernel) (by simp)

/-- with the name of the template it is checked -/
example : (Owned.add .fatal ⟨some "Formulaic Material", .property, "Chemical Formula", none, .nominalInteger 1⟩) = (0, .error .valueError) := by decide +kernel

/-! ## Quantities -/

theorem fraction_ok (level : Level) (a b : Rat) (h : 0 ≤ a ∧ a ≤ b ∧ b ≤ 1) (v : Val)
    (hv : v = .uniformReal (some a) (some b) .unitless ∨ ∃ s, a = b ∧ (v = .normalReal (some a) s .unitless ∨ v = .nominalReal (some a) .unitless)) :
    setQuantity level false (some v) = (0, .ok ()) := by
  have hb : mkReal (some (0 : Rat)) (some 1) Kitchen.unitless = .ok ⟨0, 1, .unitless⟩ := by decide +kernel
  have hb' : mkReal (some a) (some b) Kitchen.unitless = .ok ⟨a, b, .unitless⟩ := by
    simp [mkReal, RealRaw.init, RealRaw.setUnits, RealRaw.setLower, RealRaw.setUpper, RealRaw.get?]
    grind
  have hc : Attr.isContinuous v = true ∧ toBounds v = .ok (.real ⟨a, b, .unitless⟩) := by
    rcases hv with rfl | ⟨s, rfl, rfl | rfl⟩ <;> exact ⟨rfl, by simp [toBounds, hb', Except.map]⟩
  have : contains kitchen (.real ⟨0, 1, .unitless⟩) (.value v) = .ok true := by
    simp [contains, baseContains, hc.2, containsB, RealB.convert, convertUnits, h]
  simp [setQuantity, Attr.setFraction, hc.1, limits, hb, check_ok level _ v this]

/-- an absolute quantity that is neither negative nor dimensionless -/
theorem absolute_contains (a : Rat) (u : Kitchen) (h : 0 ≤ a ∧ a ≤ limits.max) (hu : u ≠ .unitless) (v : Val)
    (hv : ∃ s, v = .normalReal (some a) s u ∨ v = .nominalReal (some a) u) :
    Attr.isContinuous v = true ∧ Attr.unitsOf v = some u ∧ contains kitchen (.real ⟨0, limits.max, u⟩) (.value v) = .ok true ∧
      contains kitchen (.real ⟨0, limits.max, .unitless⟩) (.value v) = .ok false := by
  have hb' : mkReal (some a) (some a) u = .ok ⟨a, a, u⟩ := by
    simp [mkReal, RealRaw.init, RealRaw.setUnits, RealRaw.setLower, RealRaw.setUpper, RealRaw.get?]
  have hc : Attr.isContinuous v = true ∧ Attr.unitsOf v = some u ∧ toBounds v = .ok (.real ⟨a, a, u⟩) := by
    obtain ⟨s, rfl | rfl⟩ := hv <;> exact ⟨rfl, rfl, by simp [toBounds, hb', Except.map]⟩
  refine ⟨hc.1, hc.2.1, ?_, ?_⟩
  · simp [contains, baseContains, hc.2.2, containsB, RealB.convert, convertUnits, h]
  · have : kitchen.root .unitless ≠ kitchen.root u := by cases u <;> simp_all [kitchen]
    simp [contains, baseContains, hc.2.2, containsB, RealB.convert, convertUnits, this, hu.symm]

theorem limits_real (u : Kitchen) : mkReal (some limits.zero) (some limits.max) u = .ok ⟨0, limits.max, u⟩ := by cases u <;> decide +kernel

theorem absolute_ok (level : Level) (a : Rat) (u : Kitchen) (h : 0 ≤ a ∧ a ≤ limits.max) (hu : u ≠ .unitless) (v : Val)
    (hv : ∃ s, v = .normalReal (some a) s u ∨ v = .nominalReal (some a) u) :
    setQuantity level true (some v) = (0, if level = .fatal then .error .valueError else .ok ()) := by
  obtain ⟨h1, h2, h3, h4⟩ := absolute_contains a u h hu v hv
  simp only [setQuantity, Attr.setAbsolute, h1, h2, limits_real, show limits.unitless = Kitchen.unitless from rfl]
  simp only [h3, h4]
  cases level <;> simp

/-- what the recipe says of its quantities -/
theorem recipe_quantities : ∀ a ∈ recipe.ingredients, a.number = none ∧
    (∀ q ∈ a.volume, parseUnit q.units = some .unitless ∧ 0 ≤ q.nominal ∧ q.nominal ≤ 0.99) ∧ (∀ q ∈ a.mass, parseUnit q.units = some .unitless ∧ 0 ≤ q.nominal ∧ q.nominal ≤ 0.9) ∧
    (∀ q ∈ a.absolute, ∃ u, parseUnit q.units = some u ∧ u ≠ .unitless ∧ 0 ≤ q.nominal ∧ q.nominal ≤ 5) := by
  have h : recipe.ingredients.all (fun a => decide (a.number = none) && a.volume.all (fun q => decide (parseUnit q.units = some .unitless ∧ 0 ≤ q.nominal ∧ q.nominal ≤ 0.99)) &&
      a.mass.all (fun q => decide (parseUnit q.units = some .unitless ∧ 0 ≤ q.nominal ∧ q.nominal ≤ 0.9)) &&
      a.absolute.all (fun q : Quantity => match parseUnit q.units with | none => false | some u => decide (u ≠ .unitless) && decide (0 ≤ q.nominal) && decide (q.nominal ≤ 5))) = true := by decide +kernel
  intro a ha
  have := List.all_eq_true.mp h a ha
  simp only [Bool.and_eq_true, decide_eq_true_eq, Option.all_eq_true] at this
  obtain ⟨⟨⟨h1, h2⟩, h3⟩, h4⟩ := this
  refine ⟨h1, fun q hq => h2 q hq, fun q hq => h3 q hq, fun q hq => ?_⟩
  have := h4 q hq
  split at this
  · simp at this
  · rename_i u hu
    exact ⟨u, hu, by simpa [and_assoc] using this⟩

theorem max_ge : (6 : Rat) ≤ limits.max := by decide +kernel

/-- **C80**: no quantity of the specs or of the runs raises or logs a warning, whatever is drawn, unless the level is FATAL. -/
theorem C80_quantities (level : Level) (hl : level ≠ .fatal) (a : Ingredient) (ha : a ∈ recipe.ingredients) (x : Rat) (hx : 0 ≤ x ∧ x < 1) :
    ∀ o ∈ specQuantities level a ++ runQuantities level (randomQuantities a (fuzz x)), o = (0, .ok ()) := by
  obtain ⟨h1, h2, h3, h4⟩ := recipe_quantities a ha
  have hm := max_ge
  intro o ho
  simp only [specQuantities, runQuantities, randomQuantities, h1, List.mem_append, List.mem_map, Option.mem_toList, Option.map_eq_some_iff, Option.map_none, Option.toList_none,
    List.not_mem_nil, false_and, exists_false, or_false] at ho
  rcases ho with ((⟨q, hq, rfl⟩ | ⟨q, hq, rfl⟩) | ⟨q, hq, rfl⟩) | ((⟨n, ⟨q, hq, rfl⟩, rfl⟩ | ⟨n, ⟨q, hq, rfl⟩, rfl⟩) | ⟨n, ⟨q, hq, rfl⟩, rfl⟩)
  · obtain ⟨hu, h⟩ := h3 q hq
    simp only [hu, Option.map_some]
    exact fraction_ok level q.nominal q.nominal (by grind) _ (.inr ⟨none, rfl, .inr rfl⟩)
  · obtain ⟨hu, h⟩ := h2 q hq
    simp only [hu, Option.map_some]
    exact fraction_ok level q.nominal q.nominal (by grind) _ (.inr ⟨none, rfl, .inr rfl⟩)
  · obtain ⟨u, hu, hn, h⟩ := h4 q hq
    simp only [hu, Option.map_some]
    rw [absolute_ok level q.nominal u (by grind) hn _ ⟨none, .inr rfl⟩, if_neg hl]
  · obtain ⟨u, hu, hn, h⟩ := h4 q hq
    simp only [hu, Option.map_some]
    have : 0 ≤ fuzz x * q.nominal ∧ fuzz x * q.nominal ≤ 6 := by
      have hf : 0 ≤ fuzz x ∧ fuzz x ≤ 1.05 := by unfold fuzz; grind
      exact ⟨Rat.mul_nonneg hf.1 h.1, by
        have h5 := Rat.mul_le_mul_of_nonneg_right hf.2 h.1
        grind⟩
    rw [absolute_ok level (fuzz x * q.nominal) u (by grind) hn _ ⟨_, .inl rfl⟩, if_neg hl]
  · obtain ⟨hu, h⟩ := h2 q hq
    simp only [hu, Option.map_some]
    exact fraction_ok level (0.01 * (fuzz x - 0.5) + q.nominal) _ (by unfold fuzz; grind) _ (.inr ⟨_, rfl, .inl rfl⟩)
  · obtain ⟨hu, h⟩ := h3 q hq
    simp only [hu, Option.map_some]
    have hf : 0.9 ≤ fuzz x - 0.05 ∧ fuzz x - 0.05 ≤ fuzz x + 0.05 ∧ fuzz x + 0.05 ≤ 1.1 := by unfold fuzz; grind
    refine fraction_ok level ((fuzz x - 0.05) * q.nominal) ((fuzz x + 0.05) * q.nominal) ⟨Rat.mul_nonneg (by grind) h.1, Rat.mul_le_mul_of_nonneg_right hf.2.1 h.1, ?_⟩ _ (.inl rfl)
    have h5 := Rat.mul_le_mul_of_nonneg_right hf.2.2 h.1
    grind

/-- **C80 (fails)**: at FATAL every absolute quantity of the recipe raises ValueError, though it is neither negative nor dimensionless (has_quantities.py:120-124), so that the cake cannot be made. -/
theorem C80_fatal_counterexample : (∃ a ∈ recipe.ingredients, a.absolute.isSome) ∧ ∀ a ∈ recipe.ingredients, a.absolute.isSome →
    (0, .error .valueError) ∈ specQuantities .fatal a ∧ sequence (specQuantities .fatal a) = (0, .error .valueError) := by
  have h : recipe.ingredients.any (fun a => a.absolute.isSome) = true ∧ recipe.ingredients.all (fun a => !a.absolute.isSome ||
      (decide ((0, Except.error .valueError) ∈ specQuantities .fatal a) && decide (sequence (specQuantities .fatal a) = (0, .error .valueError)))) = true := by decide +kernel
  refine ⟨List.any_eq_true.mp h.1, fun a ha hs => ?_⟩
  have := List.all_eq_true.mp h.2 a ha
  simpa [hs] using this

/-- eggs are counted: not dimensionless to the setter -/
example : setQuantity .warning true (some (.nominalReal (some 4) .count)) = (0, .ok ()) := by decide +kernel
example : setQuantity .warning true (some (.nominalReal (some 4) .unitless)) = (1, .ok ()) := by decide +kernel
example : setQuantity .warning false (some (.nominalReal (some 1.01) .unitless)) = (1, .ok ()) := by decide +kernel

end Verif.Cake
