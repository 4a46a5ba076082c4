import Verif.Model.Traverse
/-!
# The cake of the demo (demo/cake.py:34-66, 243-768, 771-902)

The recipe (`make_cake_spec`) and the runs made from it (`make_cake`): names, ids, tags, notes, the sources of processes, the quantities of ingredients, and which materials are
measured. Materials are numbered in the order in which they are made, and the process of a material has its number; the cake is number 0. Attributes, templates (but for the name of the
template of a process), file links and the values that are measured are left out. That the runs of `make_instance` stand to each other as the specs do is C48.
Numbers are rational: Python's are floats, so that the last digit of a quantity is not modelled.
-/

namespace Verif.Cake
open Verif.Py Verif.Traverse

/-- the two global variables (cake.py:34-35) -/
structure Scopes where
  data : String
  templates : String
  deriving DecidableEq

/-- what they are at first -/
def Scopes.initial : Scopes := ⟨"citrine-demo", "citrine-demo" ++ "-template"⟩

/-- `change_scope(data, templates=templates)` (cake.py:38-57) -/
def changeScope (_ : Scopes) (data : String) (templates : Option String) : Scopes := match templates with
  | none => ⟨data, data ++ "-template"⟩
  | some t => ⟨data, t⟩

/-- `NominalReal(nominal, units)` -/
structure Quantity where
  nominal : Rat
  units : String
  deriving DecidableEq

/-- a material spec and the process spec that makes it -/
structure Material where
  name : String
  uid : String
  tags : List String
  notes : String
  /-- the name of the template of the process -/
  template : String
  processName : String
  processUid : String
  processTags : List String
  processNotes : String
  deriving DecidableEq

/-- an ingredient spec -/
structure Ingredient where
  name : String
  uid : String
  tags : List String
  labels : List String
  notes : String
  material : Nat
  /-- the number of the material that the process makes -/
  process : Nat
  absolute : Option Quantity
  volume : Option Quantity
  mass : Option Quantity
  number : Option Quantity
  deriving DecidableEq

/-- the specs made so far -/
structure Recipe where
  materials : List Material
  ingredients : List Ingredient

/-- `s.lower()`; the names are ASCII -/
def lower (s : String) : String := String.ofList (s.toList.map Char.toLower)

/-- `s.lower().replace(' ', '-')` -/
def slug (s : String) : String := String.ofList ((s.toList.map Char.toLower).map fun c => if c = ' ' then '-' else c)

/-- `_make_material` (cake.py:263-278) -/
def Recipe.makeMaterial (r : Recipe) (name template : String) (processTags : List String) (processNotes : String) (tags : List String) (notes : String) : Recipe :=
  let processName := template ++ " " ++ name
  { r with materials := r.materials ++ [⟨name, slug name, tags, notes, template, processName, slug processName, processTags, processNotes⟩] }

/-- `_make_ingredient` (cake.py:250-262) -/
def Recipe.makeIngredient (r : Recipe) (material process : Nat) (labels : List String) (notes : String) (absolute volume mass number : Option Quantity) : Recipe :=
  match r.materials[material]?, r.materials[process]? with
  | some m, some p => { r with ingredients := r.ingredients ++
      [⟨lower m.name, m.uid ++ "--" ++ p.processUid, m.tags, labels, notes, material, process, absolute, volume, mass, number⟩] }
  | _, _ => r

/-- `make_cake_spec()` (cake.py:281-768); at the end of each line those of the code -/
def recipe : Recipe := (⟨[], []⟩ : Recipe)
  |>.makeMaterial "Cake" "Icing" ["spreading"] "The act of covering a baked output with frosting" ["cake::butter cake", "dessert::baked::cake", "iced::chocolate"] "Butter cake recipe reminiscent of the 1-2-3-4 cake that Grandma may have baked."  -- 281-306
  |>.makeMaterial "Frosting" "Mixing" ["mixing"] "Combining ingredients to make a sweet frosting" ["frosting::chocolate", "topping::chocolate"] "Chocolate frosting"  -- 309-330
  |>.makeIngredient 1 0 ["coating"] "Seems like a lot of frosting" (some ⟨0.751, "kg"⟩) none none none  -- 331-337
  |>.makeMaterial "Baked Cake" "Baking" ["oven::baking"] "Using heat to convert batter into a solid matrix" ["substrate"] "The cakey part of the cake"  -- 339-382
  |>.makeIngredient 2 0 ["substrate"] "" none none none none  -- 383-387
  |>.makeMaterial "Batter" "Mixing" ["mixing"] "Combining ingredients to make a baking feedstock" ["mixture"] "The fluid that converts to cake with heat"  -- 390-410
  |>.makeIngredient 3 2 ["precursor"] "" none none none none  -- 411-415
  |>.makeMaterial "Wet Ingredients" "Mixing" ["mixing"] "Combining wet ingredients to make a baking feedstock" ["mixture"] "The wet fraction of a batter"  -- 418-438
  |>.makeIngredient 4 3 ["wet"] "" none none none none  -- 439-443
  |>.makeMaterial "Dry Ingredients" "Mixing" ["mixing"] "Combining dry ingredients to make a baking feedstock" ["mixture"] "The dry fraction of a batter"  -- 445-459
  |>.makeIngredient 5 3 ["dry"] "" (some ⟨3.052, "cups"⟩) none none none  -- 460-465
  |>.makeMaterial "Flour" "Procuring" ["purchase::dry-goods"] "Purchasing all purpose flour" ["raw material", "flour", "dry-goods"] "All-purpose flour"  -- 468-508
  |>.makeIngredient 6 5 ["dry"] "" none (some ⟨0.9829, ""⟩) none none  -- 509-514
  |>.makeMaterial "Baking Powder" "Procuring" ["purchase::dry-goods"] "Purchasing baking powder" ["raw material", "leavening", "dry-goods"] "Leavening agent for cake"  -- 516-532
  |>.makeIngredient 7 5 ["leavening", "dry"] "" none (some ⟨0.0137, ""⟩) none none  -- 533-538
  |>.makeMaterial "Salt" "Procuring" ["purchase::dry-goods"] "Purchasing salt" ["raw material", "seasoning", "dry-goods"] "Plain old NaCl"  -- 540-559
  |>.makeIngredient 8 5 ["dry", "seasoning"] "" none (some ⟨0.0034, ""⟩) none none  -- 560-565
  |>.makeMaterial "Sugar" "Procuring" ["purchase::dry-goods"] "Purchasing granulated sugar" ["raw material", "sweetener", "dry-goods"] "Sugar"  -- 567-592
  |>.makeIngredient 9 4 ["wet", "sweetener"] "" (some ⟨2, "cups"⟩) none none none  -- 593-598
  |>.makeMaterial "Butter" "Procuring" ["purchase::produce"] "Purchasing butter" ["raw material", "produce", "shortening", "dairy"] "Shortening for making rich, buttery baked goods"  -- 600-617
  |>.makeIngredient 10 4 ["wet", "shortening"] "" (some ⟨1, "cups"⟩) none none none  -- 618-623
  |>.makeIngredient 10 1 ["shortening"] "" none none (some ⟨0.1434, ""⟩) none  -- 624-629
  |>.makeMaterial "Eggs" "Procuring" ["purchase::produce"] "Purchasing eggs" ["raw material", "produce"] "A custard waiting to happen"  -- 631-646
  |>.makeIngredient 11 4 ["wet"] "" (some ⟨4, "count"⟩) none none none  -- 647-652
  |>.makeMaterial "Vanilla" "Procuring" ["purchase::solution"] "Purchasing vanilla" ["raw material", "seasoning"] "Vanilla Extract is mostly alcohol but the most important component is vanillin (see attached structure)"  -- 654-678
  |>.makeIngredient 12 4 ["wet", "flavoring"] "" (some ⟨2, "teaspoons"⟩) none none none  -- 679-684
  |>.makeIngredient 12 1 ["flavoring"] "" none none (some ⟨0.0231, ""⟩) none  -- 685-690
  |>.makeMaterial "Milk" "Procuring" ["purchase::produce"] "Purchasing milk" ["raw material", "produce", "dairy"] ""  -- 692-708
  |>.makeIngredient 13 3 ["wet"] "" (some ⟨1, "cup"⟩) none none none  -- 709-714
  |>.makeIngredient 13 1 [] "" none none (some ⟨0.0816, ""⟩) none  -- 715-720
  |>.makeMaterial "Chocolate" "Procuring" ["purchase::dry-goods"] "Purchasing chocolate" ["raw material"] ""  -- 722-736
  |>.makeIngredient 14 1 ["flavoring"] "" none none (some ⟨0.1132, ""⟩) none  -- 737-742
  |>.makeMaterial "Powdered Sugar" "Procuring" ["purchase::dry-goods"] "Purchasing powdered sugar" ["raw material", "sweetener", "dry-goods"] "Granulated sugar mixed with corn starch"  -- 744-760
  |>.makeIngredient 15 1 ["flavoring"] "" none none (some ⟨0.6387, ""⟩) none  -- 761-766

/-- a run -/
inductive Item where
  | material (i : Nat)
  | process (i : Nat)
  | ingredient (j : Nat)
  deriving DecidableEq

/-- `NormalReal` -/
structure Normal where
  mean : Rat
  std : Rat
  units : String
  deriving DecidableEq

/-- `UniformReal` -/
structure Uniform where
  lower : Rat
  upper : Rat
  units : String
  deriving DecidableEq

/-- the quantities of an ingredient run -/
structure Quantities where
  absolute : Option Normal := none
  volume : Option Normal := none
  mass : Option Uniform := none
  number : Option Normal := none
  deriving DecidableEq

/-- what is known of a run -/
structure Run where
  name : String
  uid : Option String := none
  tags : List String := []
  notes : Option String := none
  /-- who and when -/
  source : Option (String × String) := none
  quantities : Quantities := {}
  deriving DecidableEq

/-- the runs, and how many random numbers were drawn -/
structure St where
  run : Item → Run
  drawn : Nat

/-- what is drawn: `random.random()`, and the index that `random.choice` takes in a list of the given length -/
structure Draws where
  random : Nat → Rat
  choice : Nat → Nat → Nat

def operators : List String := ["gwash", "jadams", "thomasj", "jmadison", "jmonroe"]
def producers : List String := ["Fresh Farm", "Sunnydale", "Greenbrook"]
def drygoods : List String := ["Acme", "A1", "Reliable", "Big Box"]

/-- `random.choice(l)` -/
def choose (D : Draws) (k : Nat) (l : List String) : String := l.getD (D.choice k l.length) ""

/-- `fuzz` (cake.py:826) -/
def fuzz (x : Rat) : Rat := 0.95 + 0.1 * x

/-- the quantities of a run (cake.py:827-847) -/
def randomQuantities (a : Ingredient) (f : Rat) : Quantities where
  absolute := a.absolute.map fun q => ⟨f * q.nominal, 0.05 * q.nominal, q.units⟩
  volume := a.volume.map fun q => ⟨0.01 * (f - 0.5) + q.nominal, 0.005, q.units⟩
  mass := a.mass.map fun q => ⟨(f - 0.05) * q.nominal, (f + 0.05) * q.nominal, q.units⟩
  number := a.number.map fun q => ⟨f * q.nominal, 0.05 * q.nominal, q.units⟩

/-- the run of a spec with this name, before `_randomize_object` -/
def fromSpec (r : Recipe) (operator : String) : Item → Run
  | .material i => { name := (r.materials[i]?.map (·.name)).getD "" }
  | .process i => { name := (r.materials[i]?.map (·.processName)).getD "", source := if i = 0 then some (operator, "2015-03-14") else none }
  | .ingredient j => { name := (r.ingredients[j]?.map (·.name)).getD "" }

/-- the id, the tags and the notes (cake.py:806-810) -/
def annotate (key : String) (uid : String) (tags : List String) (notes : String) (x : Run) : Run :=
  { x with uid := some (uid ++ "-" ++ key), tags := tags, notes := if notes = "" then x.notes else some ("The spec says \"" ++ notes ++ "\"") }

def St.set (s : St) (x : Item) (v : Run) : St := { s with run := fun y => if y = x then v else s.run y }

/-- `_randomize_object(item)` (cake.py:801-847) -/
def randomize (r : Recipe) (key : String) (D : Draws) (s : St) (x : Item) : St := match x with
  | .material i => match r.materials[i]? with
    | none => s
    | some a =>
      let y := annotate key a.uid a.tags a.notes (s.run x)
      if "raw material" ∈ y.tags then
        let supplier := choose D s.drawn (if "produce" ∈ y.tags then producers else drygoods)
        { s.set x { y with name := supplier ++ " " ++ a.name } with drawn := s.drawn + 1 }
      else s.set x y
  | .process i => match r.materials[i]? with
    | none => s
    | some a =>
      let y := annotate key a.processUid a.processTags a.processNotes (s.run x)
      if a.template = "Procuring" then
        s.set x { y with source := some ("hamilton", "2015-02-17"), name := a.template ++ " " ++ (s.run (.material i)).name }
      else s.set x { y with source := (s.run (.process 0)).source }
  | .ingredient j => match r.ingredients[j]? with
    | none => s
    | some a =>
      let y := annotate key a.uid a.tags a.notes (s.run x)
      { s.set x { y with quantities := randomQuantities a (fuzz (D.random s.drawn)) } with drawn := s.drawn + 1 }

/-- The runs that `make_cake` makes (cake.py:794-848). `kids x` is what is pushed on the queue of `recursive_foreach` for the run `x`. Only runs are; specs, templates and attributes are left
out, as no run is reached by way of them and `_randomize_object` ignores them. The first draw is that of the operator. -/
def makeRuns (r : Recipe) (key : String) (D : Draws) (kids : Item → List Item) (n : Nat) : Option (Except PyErr St) :=
  recursiveForeach ⟨fun x => .key x, fun _ => kids, fun _ => true⟩ false (fun s x => .ok (randomize r key D s x)) n ⟨fromSpec r (choose D 0 operators), 1⟩ (.material 0)

def isInChars (t : List Char) : List Char → Bool
  | [] => t.isEmpty
  | c :: cs => t.isPrefixOf (c :: cs) || isInChars t cs

/-- `t in s` -/
def isIn (t s : String) : Bool := isInChars t.toList s.toList

/-- `[x.material for x in material.process.ingredients]` -/
def materialsOf (r : Recipe) (i : Nat) : List Nat := (r.ingredients.filter fun a => a.process = i).map (·.material)

/-- lines 859-863: the first result that is not None -/
def firstOf (call : Nat → Option (Option Nat)) : List Nat → Option (Option Nat)
  | [] => some none
  | i :: is => match call i with
    | none => none
    | some (some k) => some (some k)
    | some none => firstOf call is

/-- `_find_name(name, material)` (cake.py:855-863); `none` if it is not done at this depth of the recursion -/
def findName (r : Recipe) (name : Nat → String) (t : String) : Nat → Nat → Option (Option Nat)
  | 0, _ => none
  | n + 1, i => if isIn t (name i) then some (some i) else firstOf (findName r name t n) (materialsOf r i)

/-- `next(x.material for x in cake_obj.process.ingredients if t in x.name)` (cake.py:850-853); `none`: StopIteration -/
def firstNamed (r : Recipe) (s : St) (t : String) : Option Nat :=
  (((List.range r.ingredients.length).filter fun j => (r.ingredients[j]?.map (·.process)) = some 0).find? fun j => isIn t (s.run (.ingredient j)).name).bind
    fun j => r.ingredients[j]?.map (·.material)

/-- a measurement run: its name, its material and the name of its spec -/
structure Measurement where
  name : String
  material : Nat
  spec : String
  deriving DecidableEq

/-- the measurements (cake.py:869-893), given the frosting, the baked cake, the flour, the salt and the sugar that were found -/
def measurements (frosting baked flour salt sugar : Nat) : List Measurement :=
  [⟨"Final Taste", 0, "Taste"⟩, ⟨"Final Appearance", 0, "Appearance"⟩, ⟨"Frosting Taste", frosting, "Taste"⟩, ⟨"Frosting Sweetness", frosting, "Sweetness"⟩,
   ⟨"Baking doneness", baked, "Doneness"⟩, ⟨"Flour nutritional analysis", flour, "Nutritional analysis"⟩, ⟨"Salt elemental analysis", salt, "Elemental analysis"⟩,
   ⟨"Sugar elemental analysis", sugar, "Elemental analysis"⟩]

/-- the id of a measurement (cake.py:896-902) -/
def Measurement.uid (r : Recipe) (key : String) (m : Measurement) : String :=
  lower m.spec ++ "--" ++ (r.materials[m.material]?.map (·.uid)).getD "" ++ "-" ++ key

/-- The measurements that `make_cake` adds. `none`: the recursion of `_find_name` is not done at depth `n`, `next` raises a StopIteration, or something is not found (`material=None`, and
`msr.material.spec` an AttributeError). -/
def measured (r : Recipe) (s : St) (n : Nat) : Option (List Measurement) := do
  let frosting ← firstNamed r s "rosting"
  let baked ← firstNamed r s "aked"
  let flour ← (← findName r (fun i => (s.run (.material i)).name) "Flour" n 0)
  let salt ← (← findName r (fun i => (s.run (.material i)).name) "Salt" n 0)
  let sugar ← (← findName r (fun i => (s.run (.material i)).name) "Sugar" n 0)
  pure (measurements frosting baked flour salt sugar)

/-! ## Templates -/

/-- the names of the templates in the dictionary that `make_cake_templates()` returns (cake.py:74-240) -/
def templateNames : List String :=
  ["Mixer speed setting", "Cooking time", "Oven temperature setting", "Oven temperature", "Toothpick test", "Color", "Tastiness", "Nutritional Information", "Sample Mass",
   "Expected Sample Mass", "Chemical Formula", "Molecular Structure", "Procuring", "Baking", "Icing", "Mixing", "Generic Material", "Nutritional Material", "Formulaic Material", "Baked Good",
   "Dessert", "Doneness", "Taste test", "Nutritional Analysis", "Elemental Analysis"]

/-- the allowed names and labels of the process templates (cake.py:155-185); `none`: everything is -/
def processTemplates : List (String × Option (List String) × Option (List String)) :=
  [("Procuring", some [], none), ("Baking", some ["batter"], some ["precursor"]), ("Icing", none, some ["coating", "substrate"]),
   ("Mixing", none, some ["wet", "dry", "leavening", "seasoning", "sweetener", "shortening", "flavoring"])]

/-- `tmpl[key].add_uid(TEMPLATE_SCOPE, key.lower().replace(' ', '-'))` (cake.py:238-239): pairs of scope and id -/
def templateUids (s : Scopes) : List (String × String) := templateNames.map fun k => (s.templates, slug k)

/-! ## The flexural test (demo/measurement_example.py) -/

/-- a measured property; a nominal value has no standard deviation -/
structure Measured where
  name : String
  value : Rat
  std : Option Rat
  units : String
  deriving DecidableEq

structure Flexural where
  name : String
  uid : String
  tags : List String
  properties : List Measured
  deriving DecidableEq

/-- the exception -/
inductive ZeroDivisionError where
  | raised
  deriving DecidableEq

/-- the constants (measurement_example.py:13-19) -/
def thickness : Rat := 4
def width : Rat := 10
def span : Rat := 64
def appliedForce : Rat := 100

/-- `make_flexural_test_measurement` (measurement_example.py:37-75). `extra` is `list(extra_tags)`. -/
def flexural (id : String) (deflection : Rat) (extra : List String) : Except ZeroDivisionError Flexural :=
  let stress := 3 * appliedForce * span / (2 * thickness * thickness * width)
  let strain := 6 * deflection * thickness / (span * span)
  if strain = 0 then .error .raised
  else
    let modulus := stress / strain
    .ok ⟨"3 Point Bend", id, ["3_pt_bend", "mechanical", "flex"] ++ extra,
      [⟨"flexural stress", stress, some (1 / 100 * stress), "MPa"⟩, ⟨"flexural strain", strain, some (1 / 100 * strain), ""⟩, ⟨"flexural modulus", modulus, some (1 / 100 * modulus), "MPa"⟩,
       ⟨"deflection", deflection, none, "mm"⟩]⟩

/-- `make_demo_measurements` (measurement_example.py:27-35), given what is drawn: ids and deflections -/
def flexurals (extra : List String) : List (String × Rat) → Except ZeroDivisionError (List Flexural)
  | [] => .ok []
  | (id, d) :: l => match flexural id d extra with
    | .error e => .error e
    | .ok m => match flexurals extra l with
      | .error e => .error e
      | .ok ms => .ok (m :: ms)

end Verif.Cake
