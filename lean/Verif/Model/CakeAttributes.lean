import Mathlib.Algebra.Order.Ring.Unbundled.Rat
import Verif.Model.Cake
import Verif.Model.Attribute
import Verif.Model.Template
import Verif.Model.Strings
/-!
# The attributes and quantities of the cake (demo/cake.py:75-236, 281-766, 820-847, 904-1047)

The templates of the demo, the attributes of specs, runs and measurements, and the quantities of ingredients, as arguments of the constructors and setters of Model/Attribute.lean and
Model/Template.lean. Numbers are rational.
-/

namespace Verif.Cake
open Verif.Py Verif.Bounds Verif.Level Verif.Template

/-! ## Units -/

/-- the units that the demo uses -/
inductive Kitchen where
  | kelvin | fahrenheit | hour | minute | gram | kilogram | milligram | cup | teaspoon | count | unitless
  deriving DecidableEq

/-- their root units: `count` is not dimensionless (citrine_en.txt:162; units/impl.py:283-293) -/
inductive Root where
  | kelvin | second | gram | cubicMetre | count | unitless
  deriving DecidableEq

/-- offset and scale of the units (citrine_en.txt:258, 591, 628-640); only the ratio of cup and teaspoon, which is 48, matters -/
def kitchen : UnitSys Kitchen Root Rat where
  root
    | .kelvin | .fahrenheit => .kelvin
    | .hour | .minute => .second
    | .gram | .kilogram | .milligram => .gram
    | .cup | .teaspoon => .cubicMetre
    | .count => .count
    | .unitless => .unitless
  toRoot u x := match u with
    | .fahrenheit => x * (5 / 9) + (23315 / 100 + 200 / 9)
    | .hour => x * 3600
    | .minute => x * 60
    | .kilogram => x * 1000
    | .milligram => x / 1000
    | .cup => x * (48 * 4928922 / 1000000000000)
    | .teaspoon => x * (4928922 / 1000000000000)
    | _ => x
  ofRoot u x := match u with
    | .fahrenheit => (x - (23315 / 100 + 200 / 9)) * (9 / 5)
    | .hour => x / 3600
    | .minute => x / 60
    | .kilogram => x / 1000
    | .milligram => x * 1000
    | .cup => x / (48 * 4928922 / 1000000000000)
    | .teaspoon => x / (4928922 / 1000000000000)
    | _ => x

/-- the units of a quantity, as written in the recipe -/
def parseUnit : String → Option Kitchen
  | "kg" => some .kilogram
  | "cups" => some .cup
  | "cup" => some .cup
  | "teaspoons" => some .teaspoon
  | "count" => some .count
  | "" => some .unitless
  | _ => none

abbrev Lim := Bounds Kitchen Rat String
abbrev Val := Value Kitchen Rat String Rat

/-! ## Templates -/

/-- `EmpiricalFormula(formula)` -/
def formula (s : String) : Val := .empiricalFormula (some ((Strings.elements s.toList).map String.ofList))

/-- the attribute templates (cake.py:80-150), by the key in the dictionary; they are compared by their ids, which differ (C78_template_ids) -/
def attributeTemplates : List (String × ATmpl Kitchen Rat String) :=
  [("Mixer speed setting", ⟨0, .parameter, "Mixer speed setting", .int ⟨0, 10⟩⟩),
   ("Cooking time", ⟨1, .condition, "Cooking time", .real ⟨0, 7 * 24, .hour⟩⟩),
   ("Oven temperature setting", ⟨2, .parameter, "Oven temperature setting", .real ⟨0, 2000, .kelvin⟩⟩),
   ("Oven temperature", ⟨3, .condition, "Oven temperature", .real ⟨0, 2000, .kelvin⟩⟩),
   ("Toothpick test", ⟨4, .property, "Toothpick test", .cat ["wet", "crumbs", "completely clean"]⟩),
   ("Color", ⟨5, .property, "Baked color", .cat ["Pale", "Golden brown", "Deep brown", "Black"]⟩),
   ("Tastiness", ⟨6, .property, "Tastiness", .int ⟨1, 10⟩⟩),
   ("Nutritional Information", ⟨7, .property, "Nutritional Information", .comp ["other", "saturated-fat", "trans-fat", "other-fat", "cholesterol", "sodium", "dietary-fiber", "sugars",
      "other-carbohydrate", "protein", "vitamin-d", "calcium", "iron", "potassium"]⟩),
   ("Sample Mass", ⟨8, .condition, "Sample Mass", .real ⟨1 / 1000, 10000, .gram⟩⟩),
   ("Expected Sample Mass", ⟨9, .parameter, "Expected Sample Mass", .real ⟨1 / 1000, 10000, .gram⟩⟩),
   ("Chemical Formula", ⟨10, .property, "Chemical Formula", .comp Strings.allElements⟩),
   ("Molecular Structure", ⟨11, .property, "Molecular Structure", .mol⟩)]

/-- `tmpl[key]` -/
def attributeTemplate (key : String) : Option (ATmpl Kitchen Rat String) := Dict.get? attributeTemplates key

/-- a template among the arguments of an object template, alone or with bounds -/
def listed (key : String) (b : Option Lim := none) : Template.Item Kitchen Rat String := match attributeTemplate key, b with
  | some t, none => .atom (.ref (.tmpl t))
  | some t, some b => .seq [.ref (.tmpl t), .bounds b]
  | none, _ => .atom .other

/-- the attribute templates that are given to the object templates (cake.py:166-236) -/
def objectTemplates : List (String × List (AKind × List (Template.Item Kitchen Rat String))) :=
  [("Procuring", []),
   ("Baking", [(.condition, [listed "Oven temperature" (some (.real ⟨0, 700, .fahrenheit⟩))]),
     (.parameter, [listed "Oven temperature setting" (some (.real ⟨100, 550, .fahrenheit⟩))])]),
   ("Icing", []),
   ("Mixing", [(.parameter, [listed "Mixer speed setting"])]),
   ("Generic Material", []),
   ("Nutritional Material", [(.property, [listed "Nutritional Information"])]),
   ("Formulaic Material", [(.property, [listed "Chemical Formula", listed "Molecular Structure"])]),
   ("Baked Good", [(.property, [listed "Toothpick test", listed "Color"])]),
   ("Dessert", [(.property, [listed "Tastiness"])]),
   ("Doneness", [(.property, [listed "Toothpick test", listed "Color"])]),
   ("Taste test", [(.property, [listed "Tastiness"])]),
   ("Nutritional Analysis", [(.property, [listed "Nutritional Information"]), (.condition, [listed "Sample Mass"]), (.parameter, [listed "Expected Sample Mass"])]),
   ("Elemental Analysis", [(.property, [listed "Chemical Formula"]), (.condition, [listed "Sample Mass"]), (.parameter, [listed "Expected Sample Mass"])])]

/-- the list of a kind that an object template has, if its setter does not raise -/
def attributeList (k : AKind) (args : List (AKind × List (Template.Item Kitchen Rat String))) : Except PyErr (List (Template.Item Kitchen Rat String)) :=
  match Dict.get? args k with
  | none => setList kitchen k .none
  | some l => setList kitchen k (.listOrTuple l)

/-- an element of the list as template and bounds -/
def asEntry : Template.Item Kitchen Rat String → Option (Entry Kitchen Rat String)
  | .seq [.ref r, .bounds b] => some (r, some b)
  | .seq [.ref r, .none] => some (r, none)
  | _ => none

/-- the template of an object as the check sees it -/
def objectTemplate (k : AKind) : Option String → OTmpl Kitchen Rat String
  | none => .none
  | some key => match Dict.get? objectTemplates key with
    | none => .none
    | some args => match attributeList k args with
      | .error _ => .none
      | .ok l => .obj (l.filterMap asEntry)

/-- `==` between templates: they have one id each, in the same scope -/
def sameTemplate : Ref Kitchen Rat String → Ref Kitchen Rat String → Bool
  | .tmpl a, .tmpl b => a.id == b.id
  | .link s i, .link t j => s == t && i == j
  | _, _ => false

/-! ## Attributes -/

/-- an attribute, and the template of the object that it is added to -/
structure Owned where
  owner : Option String
  kind : AKind
  name : String
  template : Option String
  value : Val

/-- the template as argument of the constructor: one of another class is refused (base_attribute.py:100-102) -/
def Owned.argument (x : Owned) : Attr.TmplArg Kitchen Rat String := match x.template.map attributeTemplate with
  | none => .none
  | some none => .other
  | some (some t) => if t.kind = x.kind then .tmpl t.bounds else .other

/-- construct the attribute and add it to the list of the object: how many warnings are logged, and what is raised -/
def Owned.add (level : Level) (x : Owned) : Nat × Except PyErr Unit :=
  match Attr.mk kitchen level (.value x.value) x.argument with
  | (n, .error e) => (n, .error e)
  | (n, .ok _) =>
    match templateCheck kitchen sameTemplate x.kind ⟨objectTemplate x.kind x.owner, level, n⟩ ⟨(x.template.bind attributeTemplate).map .tmpl, x.name, some x.value⟩ with
    | (w, .error e) => (w.warnings, .error e)
    | (w, .ok _) => (w.warnings, .ok ())

/-- one after the other, up to the first exception -/
def sequence : List (Nat × Except PyErr Unit) → Nat × Except PyErr Unit
  | [] => (0, .ok ())
  | (n, .error e) :: _ => (n, .error e)
  | (n, .ok _) :: l => ((sequence l).1 + n, (sequence l).2)

/-- the attributes of the specs (cake.py:289-296, 316-321, 346-358, 361-376, 397-402, 425-430, 478-501, 556-558, 583-591, 670-677) -/
def specAttributes : List Owned :=
  [⟨some "Dessert", .property, "Tastiness", some "Tastiness", .nominalInteger 5⟩,
   ⟨some "Mixing", .parameter, "Mixer speed setting", some "Mixer speed setting", .nominalInteger 2⟩,
   ⟨some "Baking", .parameter, "Oven temperature setting", some "Oven temperature setting", .nominalReal (some 350) .fahrenheit⟩,
   ⟨some "Baking", .condition, "Cooking time", some "Cooking time", .normalReal (some 50) (some 5) .minute⟩,
   ⟨some "Baked Good", .property, "Toothpick test", some "Toothpick test", .nominalCategorical (some "completely clean")⟩,
   ⟨some "Baked Good", .property, "Color", some "Color", .nominalCategorical (some "Golden brown")⟩,
   ⟨some "Mixing", .parameter, "Mixer speed setting", some "Mixer speed setting", .nominalInteger 2⟩,
   ⟨some "Mixing", .parameter, "Mixer speed setting", some "Mixer speed setting", .nominalInteger 2⟩,
   ⟨none, .condition, "Serving Size", some "Sample Mass", .nominalReal (some 30) .gram⟩,
   ⟨some "Nutritional Material", .property, "Nutritional Information", some "Nutritional Information",
     .nominalComposition [("dietary-fiber", 1), ("sugars", 1), ("other-carbohydrate", 20), ("protein", 4), ("other", 4)]⟩,
   ⟨some "Formulaic Material", .property, "Formula", none, formula "NaCl"⟩,
   ⟨some "Formulaic Material", .property, "Formula", none, formula "C12H22O11"⟩,
   ⟨some "Formulaic Material", .property, "SMILES", some "Molecular Structure", .smiles⟩,
   ⟨some "Generic Material", .property, "Component Structure", some "Molecular Structure", .inchi⟩]

/-- `x * (0.99 + 0.02 * random.random())` -/
def about (x r : Rat) : Rat := x * (0.99 + 0.02 * r)

/-- `NormalReal(mean=99 + 2 * random.random(), std=1.5, units='mg')` -/
def sampleMass (r : Rat) : Val := .normalReal (some (99 + 2 * r)) (some 1.5) .milligram

/-- the attributes of the runs and of the measurements and their specs (cake.py:906-1047); `r` are the random numbers drawn meanwhile -/
def runAttributes (r : Nat → Rat) : List Owned :=
  [⟨some "Baking", .condition, "Cooking time", some "Cooking time", .nominalReal (some 48) .minute⟩,
   ⟨some "Baking", .condition, "Oven temperature", none, .nominalReal (some 362) .fahrenheit⟩,
   ⟨some "Taste test", .property, "Tastiness", some "Tastiness", .uniformInteger 4 5⟩,
   ⟨none, .property, "Visual Appeal", none, .nominalInteger 5⟩,
   ⟨some "Taste test", .property, "Tastiness", some "Tastiness", .nominalInteger 4⟩,
   ⟨none, .property, "Sweetness (Sucrose-basis)", none, .nominalReal (some 1.7) .unitless⟩,
   ⟨some "Doneness", .property, "Toothpick test", some "Toothpick test", .nominalCategorical (some "crumbs")⟩,
   ⟨some "Doneness", .property, "Color", some "Color", .discreteCategorical (some [("Pale", 0.05), ("Golden brown", 0.65), ("Deep brown", 0.3)])⟩,
   ⟨some "Nutritional Analysis", .property, "Nutritional Information", some "Nutritional Information",
     .nominalComposition [("dietary-fiber", about 1 (r 0)), ("sugars", about 1 (r 1)), ("other-carbohydrate", about 20 (r 2)), ("protein", about 4 (r 3)), ("other", about 4 (r 4))]⟩,
   ⟨some "Nutritional Analysis", .condition, "Sample Mass", some "Sample Mass", sampleMass (r 5)⟩,
   ⟨some "Nutritional Analysis", .parameter, "Expected Sample Mass", some "Expected Sample Mass", .nominalReal (some 0.1) .gram⟩,
   ⟨some "Nutritional Analysis", .condition, "Sample Mass", some "Sample Mass", .nominalReal (some 100) .milligram⟩,
   ⟨some "Nutritional Analysis", .parameter, "Expected Sample Mass", some "Expected Sample Mass", .nominalReal (some 0.1) .gram⟩,
   ⟨some "Elemental Analysis", .property, "Composition", some "Chemical Formula", formula "NaClCa0.006Si0.006O0.018K0.000015I0.000015"⟩,
   ⟨some "Elemental Analysis", .condition, "Sample Mass", some "Sample Mass", sampleMass (r 6)⟩,
   ⟨some "Elemental Analysis", .parameter, "Expected Sample Mass", some "Expected Sample Mass", .nominalReal (some 0.1) .gram⟩,
   ⟨some "Elemental Analysis", .condition, "Sample Mass", some "Sample Mass", .nominalReal (some 100) .milligram⟩,
   ⟨some "Elemental Analysis", .property, "Composition", some "Chemical Formula", formula "C11.996H21.995O10.997S0.00015"⟩,
   ⟨some "Elemental Analysis", .condition, "Sample Mass", some "Sample Mass", sampleMass (r 7)⟩,
   ⟨some "Elemental Analysis", .parameter, "Expected Sample Mass", some "Expected Sample Mass", .nominalReal (some 0.1) .gram⟩]

/-! ## Quantities -/

/-- 0.0, 1.0, `sys.float_info.max` and `''` -/
def limits : Attr.Consts Kitchen Rat := ⟨0, 1, ((2 ^ 53 - 1) * 2 ^ 971 : Nat), .unitless⟩

/-- a quantity in its setter; `none`: no such unit -/
def setQuantity (level : Level) (absolute : Bool) (v : Option Val) : Nat × Except PyErr Unit := match v with
  | none => (0, .error .undefinedUnit)
  | some v => (if absolute then Attr.setAbsolute kitchen limits level none (.value v) else Attr.setFraction kitchen limits level none (.value v)).2

/-- the quantities of an ingredient spec in the setters, in the order of the constructor (has_quantities.py:16-32) -/
def specQuantities (level : Level) (a : Ingredient) : List (Nat × Except PyErr Unit) :=
  let nominal := fun q : Quantity => (parseUnit q.units).map fun u => (.nominalReal (some q.nominal) u : Val)
  a.mass.toList.map (fun q => setQuantity level false (nominal q)) ++ a.volume.toList.map (fun q => setQuantity level false (nominal q)) ++
    a.number.toList.map (fun q => setQuantity level false (nominal q)) ++ a.absolute.toList.map (fun q => setQuantity level true (nominal q))

/-- those of an ingredient run in the setters, in the order of cake.py:827-847 -/
def runQuantities (level : Level) (q : Quantities) : List (Nat × Except PyErr Unit) :=
  let normal := fun q : Normal => (parseUnit q.units).map fun u => (.normalReal (some q.mean) (some q.std) u : Val)
  q.absolute.toList.map (fun q => setQuantity level true (normal q)) ++ q.volume.toList.map (fun q => setQuantity level false (normal q)) ++
    q.mass.toList.map (fun q => setQuantity level false ((parseUnit q.units).map fun u => .uniformReal (some q.lower) (some q.upper) u)) ++
    q.number.toList.map (fun q => setQuantity level false (normal q))

end Verif.Cake
