import Verif.Model.Tables
import Verif.Model.Markup
/-!
# Making objects and a structured table of the Strehlow & Cook data (demo/strehlow_and_cook.py:84-394)

Objects are reduced to what ends up in the table: names, values, and which spec a run has. Attributes and templates are checked against bounds only at the level
FATAL, which is not the default; the checks are not modelled here (C22, C23 are about them). `tags`, `uids`, `origin` and `notes` are left out.
-/

namespace Verif.Strehlow
open Verif.Py Verif.Tables

/-- the bounds of an attribute template -/
inductive TBounds where
  | real (units : String)
  | categorical (categories : List String)
  | composition
  deriving DecidableEq

/-- a template: of a property, of a condition, or of an object -/
inductive Tmpl where
  | property (b : TBounds)
  | condition (b : TBounds)
  | object
  deriving DecidableEq

def Tmpl.bounds : Tmpl → Option TBounds
  | .property b => some b
  | .condition b => some b
  | .object => none

/-- `CategoricalBounds(['True', 'False'])` -/
def yesNo : TBounds := .categorical ["True", "False"]

/-- `make_templates()` (strehlow_and_cook.py:84-192), by name -/
def templates : List (String × Tmpl) :=
  [("Formula", .property .composition),
   ("Crystallinity", .condition (.categorical ["Amorphous", "Polycrystalline", "Single crystalline"])),
   ("Color", .property (.categorical ["Amber", "Black", "Blue", "Bluish", "Bronze", "Brown", "Brown-Black", "Copper-Red", "Dark Brown", "Dark Gray", "Dark Green", "Dark Red", "Gray",
     "Light Gray", "Ocher", "Orange", "Orange-Red", "Pale Yellow", "Red", "Red-Yellow", "Violet", "White", "Yellow", "Yellow-Orange", "Yellow-White"])),
   ("Band gap", .property (.real "eV")),
   ("Temperature", .condition (.real "K")),
   ("Temperature derivative of band gap", .property (.real "eV/K")),
   ("Lasing", .property yesNo),
   ("Cathodoluminescence", .property yesNo),
   ("Mechanical luminescence", .property yesNo),
   ("Photoluminescence", .property yesNo),
   ("Electroluminescence", .property yesNo),
   ("Thermoluminescence", .property yesNo),
   ("Morphology", .condition (.categorical ["Thin film", "Bulk"])),
   ("Electric field polarization", .condition (.categorical ["Parallel to A axis", "Parallel to B axis", "Parallel to C axis", "Perpendicular to B axis",
     "Perpendicular to C axis"])),
   ("Phase", .condition (.categorical ["A", "B", "B1", "B2", "Fused quartz", "Natural diamond", "Rutile", "Sapphire", "Synthetic quartz"])),
   ("Crystal system", .condition (.categorical ["Cubic", "Hexagonal", "Orthorhombic", "Tetragonal", "Trigonal"])),
   ("Transition", .condition (.categorical ["Direct", "Excitonic", "Indirect"])),
   ("Bands", .condition (.categorical ["G1 to X1", "G15 to G1", "G15 to X1", "G25 to G1", "G25 to G12", "G25 to G15", "G6 to G8", "G8 to G6+", "L6+ to L6-"])),
   ("Sample preparation", .object), ("Chemical", .object), ("Band gap measurement", .object)]

/-- the attribute templates of the template "Band gap measurement" (strehlow_and_cook.py:161-181) -/
def measured : List String :=
  ["Band gap", "Temperature derivative of band gap", "Color", "Lasing", "Cathodoluminescence", "Mechanical luminescence", "Photoluminescence", "Electroluminescence",
   "Thermoluminescence", "Temperature", "Crystallinity", "Morphology", "Electric field polarization", "Phase", "Crystal system", "Transition", "Bands"]

/-- `name_map` (strehlow_and_cook.py:267-270) -/
def nameMap : List (String × String) := [("Phase", "Crystal system"), ("Transition", "Bands")]

/-- a property or condition of a row of the data: its name, `scalars[0]['value']` as text, and what `real_mapper` gives for it (`Tables.realMapper`), or raises -/
structure RawAttr where
  name : String
  value : String
  real : Except PyErr Cell

/-- a property with its conditions -/
structure RawProp where
  attr : RawAttr
  conditions : List RawAttr

/-- a row of the data -/
structure Row where
  formula : List Char
  properties : List RawProp

/-- a measurement run: the attributes, by name (strehlow_and_cook.py:263-264) -/
structure Msr where
  properties : List (String × Cell)
  conditions : List (String × Cell)

/-- a material spec: its name and the names and values of its properties -/
structure Spec where
  name : List Char
  properties : List (String × Cell)

/-- a material run: the number of its spec, and its measurement -/
structure Run where
  spec : Nat
  msr : Msr

/-- `template` (strehlow_and_cook.py:288-293) with its name; KeyError if there is none. `value not in template.bounds.categories`: AttributeError if the bounds have none. -/
def routed (tmpls : List (String × Tmpl)) (renamed : List (String × String)) (a : RawAttr) : Except PyErr (String × Tmpl) := match tmpls.lookup a.name with
  | none => .error .keyError
  | some t => match renamed.lookup a.name with
    | none => .ok (a.name, t)
    | some other => match t.bounds with
      | some (.categorical l) => if a.value ∈ l then .ok (a.name, t) else match tmpls.lookup other with
        | none => .error .keyError
        | some t => .ok (other, t)
      | _ => .error .attributeError

/-- `content_map[type(template.bounds)](attr)` (strehlow_and_cook.py:234-238); there is no entry for composition bounds -/
def content (b : TBounds) (a : RawAttr) : Except PyErr Cell := match b with
  | .real _ => a.real
  | .categorical _ => .ok (.category a.value)
  | .composition => .error .keyError

/-- the loop over the attributes (strehlow_and_cook.py:275-311); `seen` is a set -/
def addAttrs (tmpls : List (String × Tmpl)) (renamed : List (String × String)) : List String → Msr → List RawAttr → Except PyErr Msr
  | _, m, [] => .ok m
  | seen, m, a :: as =>
    if a.name ∈ seen then addAttrs tmpls renamed seen m as
    else match routed tmpls renamed a with
      | .error e => .error e
      | .ok (name, .property b) => match content b a with
        | .error e => .error e
        | .ok c => addAttrs tmpls renamed (a.name :: seen) { m with properties := m.properties ++ [(name, c)] } as
      | .ok (name, .condition b) => match content b a with
        | .error e => .error e
        | .ok c => addAttrs tmpls renamed (a.name :: seen) { m with conditions := m.conditions ++ [(name, c)] } as
      | .ok (_, .object) => addAttrs tmpls renamed (a.name :: seen) m as

/-- `for prop in row['properties']: for attr in [prop] + prop.get('conditions', [])` -/
def Row.attrs (r : Row) : List RawAttr := r.properties.flatMap (fun p => p.attr :: p.conditions)

/-- the compounds so far (`compounds`, a dict from formulas to specs), the specs in the order they are made, and the runs (`datapoints`) -/
structure Objs where
  compounds : List (List Char × Nat)
  specs : List Spec
  runs : List Run

/-- lines 244-251: the spec of a formula, made if there is none yet -/
def specOf (digit : Char → Bool) (o : Objs) (f : List Char) : Objs × Nat := match o.compounds.lookup f with
  | some i => (o, i)
  | none => ({ o with compounds := o.compounds ++ [(f, o.specs.length)], specs := o.specs ++ [{ name := Markup.latex digit f, properties := [] }] }, o.specs.length)

/-- lines 255-261: the formula as a property of the spec, if it has no property yet. `EmpiricalFormula` may raise (C19). -/
def giveFormula (table : List (List Char)) (o : Objs) (i : Nat) (f : List Char) : Except PyErr Objs := match o.specs[i]? with
  | none => .error .other
  | some s => if s.properties.isEmpty then match Strings.setFormula table none (.str f) with
      | (_, .error e) => .error e
      | (_, .ok _) => .ok { o with specs := o.specs.set i { s with properties := [("Formula", .formula (String.ofList f))] } }
    else .ok o

/-- one row of the data (strehlow_and_cook.py:243-311) -/
def addRow (digit : Char → Bool) (table : List (List Char)) (o : Objs) (r : Row) : Except PyErr Objs :=
  let f := Markup.clean r.formula
  match specOf digit o f with
  | (o, i) => match giveFormula table o i f with
    | .error e => .error e
    | .ok o => match addAttrs templates nameMap [] ⟨[], []⟩ r.attrs with
      | .error e => .error e
      | .ok m => .ok { o with runs := o.runs ++ [⟨i, m⟩] }

/-- the rows in order -/
def addRows (digit : Char → Bool) (table : List (List Char)) : Objs → List Row → Except PyErr Objs
  | o, [] => .ok o
  | o, r :: rs => match addRow digit table o r with
    | .error e => .error e
    | .ok o => addRows digit table o rs

/-- `make_strehlow_objects(table)` (strehlow_and_cook.py:195-313) -/
def makeObjects (digit : Char → Bool) (table : List (List Char)) (rows : List Row) : Except PyErr Objs := addRows digit table ⟨[], [], []⟩ rows

/-! ## The structured table -/

/-- `terms` (strehlow_and_cook.py:360-364) -/
def terms : List String :=
  ["Band gap", "Temperature derivative of band gap", "Temperature", "Color", "Lasing", "Cathodoluminescence", "Mechanical luminescence", "Photoluminescence",
   "Electroluminescence", "Thermoluminescence", "Transition", "Bands", "Electric field polarization", "Crystallinity", "Morphology", "Phase", "Crystal system"]

/-- the bounds as the display table looks at them; `fmt` is `parse_units`, which the units of real bounds have gone through (real_bounds.py:79-81) -/
def shown (fmt : String → String) : TBounds → Tables.Bounds
  | .real u => .real (fmt u)
  | .categorical _ => .categorical
  | .composition => .composition

/-- the column of a term (strehlow_and_cook.py:366-374), `tmpl` being made of the measurement's template (331-337): KeyError if the term is not there -/
def column (fmt : String → String) (term : String) : Except PyErr Column :=
  if term ∈ measured then match templates.lookup term with
    | some t => match t.bounds with
      | some b => .ok ⟨["Chemical", term], some (shown fmt b)⟩
      | none => .error .attributeError
    | none => .error .keyError
  else .error .keyError

/-- `x = list(filter(lambda y: y.name == term, ...)); x[0].value if x else None` (strehlow_and_cook.py:378-390) -/
def pick (term : String) (l : List (String × Cell)) : Cell := (l.lookup term).getD .absent

/-- the row of a run (strehlow_and_cook.py:377-392) -/
def tableRow (specs : List Spec) (chem : String) (r : Run) : Except PyErr (List Cell) := match specs[r.spec]? with
  | none => .error .other
  | some s => .ok (.text (String.ofList s.name) :: pick chem s.properties :: terms.map (fun t => pick t (r.msr.properties ++ r.msr.conditions)))

/-- `next(p.property.template for c in compounds for p in c.spec.properties)` (strehlow_and_cook.py:328): its name; StopIteration (`other`) if there is no property -/
def chemName (o : Objs) : Except PyErr String := match o.runs.findSome? (fun r => o.specs[r.spec]?.bind (fun s => s.properties.head?)) with
  | none => .error .other
  | some p => .ok p.1

/-- `make_strehlow_table(compounds)` (strehlow_and_cook.py:316-394) of what `make_strehlow_objects` gives: the columns and the rows -/
def makeTable (fmt : String → String) (o : Objs) : Except PyErr (List Column × List (List Cell)) := match chemName o with
  | .error e => .error e
  | .ok chem => match mapE (column fmt) terms with
    | .error e => .error e
    | .ok cols => match mapE (tableRow o.specs chem) o.runs with
      | .error e => .error e
      | .ok rows => .ok (⟨["Chemical", "Display name"], none⟩ :: ⟨["Chemical", chem], some .composition⟩ :: cols, rows)

end Verif.Strehlow
