import Verif.Model.Value
import Verif.Model.Equal
import Verif.Model.Strings
/-!
# The constructors of gemd's classes

One table lists the arguments of every constructor with its default and with what the setter of the attribute does with the argument;
the constructors themselves are then one function, `construct` for the objects that are values (attributes, values, bounds, sources,
file links) and `constructE` for entities.

Simplifications. The validation level is IGNORE: the checks against templates (C21 to C24) never reject anything here. The pint library
is given by the environment. Numbers are rational, so `isfinite` is always true. Members of the enumerations `Origin` and `SampleType`
are strings and are written as strings. A set of strings is written as the sorted list of its members. User-defined subclasses, numpy
and pandas arrays, sets, generators and pint's Unit objects are left out.
-/

namespace Verif.Schema
open Verif.Py Verif.Value

/-- What the constructors use from outside: `parse_units` on strings (units/impl.py:329-364), `str.lower`, `str.lower().strip()`
(enumeration/base_enumeration.py:63), and whether some bounds contain others (C05 to C09). -/
structure Env where
  parseUnits : String → Except PyErr String
  lower : String → String
  text : String → String
  contains : V → V → Bool

/-! ## What the setters do -/

/-- what a setter does with the argument -/
inductive Kind where
  | raw
  | str
  | strName
  | optStr
  | formula
  | inchi
  | units
  | nominal
  | bound
  | intLike
  | intBound
  | strSet
  | probabilities
  | quantities
  | enum (members : List String)
  | obj (typs : List String) (ifNone : PyErr)
  | optObj (typs : List String)
  | objList (typs : List String)
  | strList
  | target (classes : List ECls)
  | ranges (cls : ECls)
  deriving DecidableEq

/-- the classes of values (gemd/entity/value) -/
def valueTypes : List String :=
  ["nominal_real", "uniform_real", "normal_real", "nominal_integer", "uniform_integer", "nominal_categorical", "discrete_categorical",
   "nominal_composition", "empirical_formula", "smiles", "inchi"]
/-- the subclasses of ContinuousValue -/
def continuousTypes : List String := ["nominal_real", "uniform_real", "normal_real"]
/-- the classes of bounds (gemd/entity/bounds) -/
def boundsTypes : List String :=
  ["real_bounds", "integer_bounds", "categorical_bounds", "composition_bounds", "molecular_structure_bounds"]
/-- the subclasses of AttributeTemplate -/
def attributeTemplates : List ECls := [.propertyTemplate, .conditionTemplate, .parameterTemplate]
/-- Origin (enumeration/origin.py:7-15) -/
def origins : List String := ["measured", "predicted", "summary", "specified", "computed", "unknown"]
/-- SampleType (enumeration/sample_type.py:7-13) -/
def sampleTypes : List String := ["experimental", "production", "virtual", "unknown"]

/-- `isinstance(v, ...)` for the objects that are values -/
def isTyp (typs : List String) : V → Bool
  | .obj t _ _ => decide (t ∈ typs)
  | _ => false

/-- `isinstance(v, LinkByUID)` -/
def isLink : V → Bool
  | .link _ _ => true
  | _ => false

/-- `isinstance(v, ...)` for entities -/
def isCls (m : Mem) (classes : List ECls) : V → Bool
  | .ref o => match m[o]? with
    | some x => decide (x.cls ∈ classes)
    | none => false
  | _ => false

/-- `isinstance(v, str)` -/
def isStr : V → Bool
  | .str _ => true
  | _ => false

/-- the number a Python number is (booleans are ints) -/
def num : V → Option Rat
  | .bool b => some (if b then 1 else 0)
  | .int i => some i
  | .float q => some q
  | _ => none

/-- `validate_str` (setters.py:39-60) -/
def convStr (e : PyErr) : V → Except PyErr V
  | .str s => .ok (.str s)
  | _ => .error e

/-- the setters that take None or a string (performed_source.py:31-38 and 45-52, smiles_value.py:29-36, nominal_categorical.py:29-34) -/
def convOptStr : V → Except PyErr V
  | .none => .ok .none
  | .str s => .ok (.str s)
  | _ => .error .typeError

/-- empirical_formula.py:51-62; the string part is `Verif.Strings.setFormula` (C19) -/
def convFormula : V → Except PyErr V
  | .none => .ok .none
  | .str s => match (Strings.setFormula (Strings.allElements.map String.toList) none (.str s.toList)).2 with
    | .ok _ => .ok (.str s)
    | .error e => .error e
  | _ => .error .typeError

/-- inchi_value.py:28-42; the string part is `Verif.Strings.setInchi` (C18) -/
def convInchi : V → Except PyErr V
  | .none => .ok .none
  | .str s => match (Strings.setInchi none (.str s.toList)).1 with
    | some w => .ok (.str (String.ofList w))
    | none => .ok .none
  | _ => .error .typeError

/-- continuous_value.py:37-42, real_bounds.py:75-81, units/impl.py:349-364 -/
def convUnits (env : Env) : V → Except PyErr V
  | .none => .error .valueError
  | .str s => match env.parseUnits s with
    | .ok u => .ok (.str u)
    | .error e => .error e
  | _ => .error .undefinedUnit

/-- nominal_real.py:22-26 -/
def convNominal (v : V) : Except PyErr V := match num v with
  | some q => .ok (.float q)
  | none => .error .assertionError

/-- real_bounds.py:40-48, 55-63, without the comparison of the two bounds; `isfinite` raises TypeError on what is not a number -/
def convBound (v : V) : Except PyErr V := match num v with
  | some q => .ok (.float q)
  | none => if v = .none then .error .valueError else .error .typeError

/-- nominal_integer.py:28-35, uniform_integer.py:33-46 and 52-64, without the comparison of the two bounds -/
def convIntLike (v : V) : Except PyErr V := match num v with
  | some q => if q.den = 1 then .ok (.int q.num) else .error .typeError
  | none => .error .typeError

/-- integer_bounds.py:37-45, 52-60, without the comparison of the two bounds -/
def convIntBound (v : V) : Except PyErr V := match num v with
  | some q => if q.den = 1 then .ok (.int q.num) else .error .valueError
  | none => if v = .none then .error .valueError else .error .typeError

/-- insert into a sorted list without repetitions -/
def insertStr (s : String) : List String → List String
  | [] => [s]
  | t :: ts => if s = t then t :: ts else if s < t then s :: t :: ts else t :: insertStr s ts

/-- the strings of a list, if all its members are strings -/
def strings : List V → Option (List String)
  | [] => some []
  | .str s :: vs => (strings vs).map (s :: ·)
  | _ :: _ => none

/-- has a member no hash? (`set(...)` then raises TypeError) -/
def someUnhashable (l : List V) : Bool := l.any (fun v => match v with | .list _ => true | .dict _ _ => true | _ => false)

/-- categorical_bounds.py:32-44, composition_bounds.py:33-46; the set is written as a sorted list. (`set(...)` also raises for a tuple
with a list in it; here that is a ValueError.) -/
def convStrSet : V → Except PyErr V
  | .none => .ok (.list [])
  | .list l => match strings l with
    | some ss => .ok (.list ((ss.foldr insertStr []).map .str))
    | none => if someUnhashable l then .error .typeError else .error .valueError
  | .tuple l => match strings l with
    | some ss => .ok (.list ((ss.foldr insertStr []).map .str))
    | none => if someUnhashable l then .error .typeError else .error .valueError
  | _ => .error .valueError

/-- the sum of numbers -/
def total : List V → Option Rat
  | [] => some 0
  | v :: vs => match num v, total vs with
    | some q, some r => some (q + r)
    | _, _ => none

/-- `abs(q - 1.0)` -/
def fromOne (q : Rat) : Rat := if q - 1 < 0 then 1 - q else q - 1

/-- discrete_categorical.py:37-49 -/
def convProbabilities : V → Except PyErr V
  | .none => .ok .none
  | .str s => .ok (.dict [.str s] [.float 1])
  | .dict ks vs => match total vs with
    | some q => if (1 : Rat) / 1000000000 < fromOne q then .error .valueError
      else if ks.all isStr then .ok (.dict ks vs) else .error .typeError
    | none => .error .typeError
  | _ => .error .typeError

/-- nominal_composition.py:36-45. `dict(quantities)` of a list of pairs is left out. -/
def convQuantities : V → Except PyErr V
  | .none => .ok (.dict [] [])
  | .dict ks vs => .ok (.dict ks vs)
  | .list [] => .ok (.dict [] [])
  | .list _ => .error .other
  | _ => .error .typeError

/-- `from_str(val, exception=True)` (base_enumeration.py:42-66, base_attribute.py:114-119, material_run.py:104-106): the members are
lower case and have no synonyms -/
def convEnum (env : Env) (members : List String) : V → Except PyErr V
  | .none => .error .valueError
  | .str s => match members.find? (fun x => decide (env.text s = x)) with
    | some x => .ok (.str x)
    | none => .error .valueError
  | _ => .error .typeError

/-- a required object: AttributeTemplate.bounds (attribute_template.py:47-54), PropertyAndConditions.property
(property_and_conditions.py:73-78) -/
def convObj (typs : List String) (ifNone : PyErr) (v : V) : Except PyErr V :=
  if v = .none then .error ifNone else if isTyp typs v then .ok v else .error .typeError

/-- an optional object: `value` (base_attribute.py:74-84), `source` (has_source.py:19-26), the quantities (has_quantities.py:51-125) -/
def convOptObj (typs : List String) (v : V) : Except PyErr V :=
  if v = .none then .ok .none else if isTyp typs v then .ok v else .error .typeError

/-- the members of what `validate_list` is given (setters.py:31-36) -/
def members : V → List V
  | .none => []
  | .list l => l
  | .tuple l => l
  | .dict ks _ => ks
  | v => [v]

/-- `validate_list(obj, typ)` (setters.py:10-36, valid_list.py: C03, C55) -/
def convList (p : V → Bool) (v : V) : Except PyErr V :=
  if (members v).all p then .ok (.list (members v)) else .error .typeError

/-- a pointer: None, an entity of one of the classes, or a link (has_spec.py:26-35, has_template.py:30-39, base_attribute.py:91-102,
material_run.py:75-87, material_spec.py:87-109, measurement_run.py:92-103, ingredient_run.py:109-117 and 124-136,
ingredient_spec.py:102-110 and 117-130). The back reference is set in `constructE`. -/
def convTarget (m : Mem) (classes : List ECls) (v : V) : Except PyErr V :=
  if v = .none ∨ isLink v = true ∨ isCls m classes v = true then .ok v else .error .typeError

/-- does the template `t` (if it is one) allow the bounds `b`? (base_template.py:76-78) -/
def allows (env : Env) (m : Mem) (t b : V) : Bool := match t with
  | .ref o => match m[o]? with
    | some x => match Dict.get? x.fields "_bounds" with
      | some bt => env.contains bt b
      | none => false
    | none => false
  | _ => true

/-- `first, second = template_or_tuple` and what follows (base_template.py:73-80) -/
def homogenizePair (env : Env) (m : Mem) : List V → Except PyErr V
  | [a, b] =>
    if (isLink a || isCls m attributeTemplates a) && (isTyp boundsTypes b || decide (b = .none)) then
      if isTyp boundsTypes b && !allows env m a b then .error .valueError else .ok (.list [a, b])
    else .error .typeError
  | _ => .error .valueError

/-- one member of a list of templates: the type check (has_condition_templates.py:69-70) and `_homogenize_ranges`
(base_template.py:43-80) -/
def homogenize (env : Env) (m : Mem) (cls : ECls) (v : V) : Except PyErr V := match v with
  | .list l => homogenizePair env m l
  | .tuple l => homogenizePair env m l
  | v => if isLink v || isCls m [cls] v then .ok (.list [v, .none]) else .error .typeError

/-- `[f(x) for x in l]`, stopping at the first exception -/
def mapE (f : V → Except PyErr V) : List V → Except PyErr (List V)
  | [] => .ok []
  | v :: vs => match f v with
    | .error e => .error e
    | .ok w => match mapE f vs with
      | .error e => .error e
      | .ok ws => .ok (w :: ws)

/-- has_condition_templates.py:47-72, has_parameter_templates.py:47-72, has_property_templates.py:50-70 -/
def convRanges (env : Env) (m : Mem) (cls : ECls) (v : V) : Except PyErr V :=
  match mapE (homogenize env m cls) (if (members v).any (isTyp boundsTypes) then [v] else members v) with
  | .error e => .error e
  | .ok l => .ok (.list l)

/-- what the setter stores, or the exception it raises -/
def conv (env : Env) (m : Mem) : Kind → V → Except PyErr V
  | .raw, v => .ok v
  | .str, v => convStr .typeError v
  | .strName, v => convStr .valueError v
  | .optStr, v => convOptStr v
  | .formula, v => convFormula v
  | .inchi, v => convInchi v
  | .units, v => convUnits env v
  | .nominal, v => convNominal v
  | .bound, v => convBound v
  | .intLike, v => convIntLike v
  | .intBound, v => convIntBound v
  | .strSet, v => convStrSet v
  | .probabilities, v => convProbabilities v
  | .quantities, v => convQuantities v
  | .enum ms, v => convEnum env ms v
  | .obj ts e, v => convObj ts e v
  | .optObj ts, v => convOptObj ts v
  | .objList ts, v => convList (isTyp ts) v
  | .strList, v => convList isStr v
  | .target cs, v => convTarget m cs v
  | .ranges c, v => convRanges env m c v

/-! ## The constructors of the objects that are values -/

/-- an argument of a constructor: its name, its default (None if it is required), the setter -/
structure Arg where
  name : String
  dflt : Option V
  kind : Kind

/-- A class: its arguments in the order in which the constructor sets them; whether `lower_bound <= upper_bound` is checked, and the
exception if not. -/
structure Cls where
  args : List Arg
  ordered : Option PyErr

/-- the arguments of attributes (base_attribute.py:37-57) -/
def attributeArgs (t : ECls) : List Arg :=
  [⟨"name", none, .raw⟩, ⟨"notes", some .none, .raw⟩, ⟨"value", some .none, .optObj valueTypes⟩, ⟨"template", some .none, .target [t]⟩,
   ⟨"origin", some (.str "unknown"), .enum origins⟩, ⟨"file_links", some .none, .objList ["file_link"]⟩]

/-- The classes that are neither entities nor links: property.py, condition.py, parameter.py, property_and_conditions.py:29-36,
file_link.py:26-29, performed_source.py:19-24, nominal_real.py:22-26, uniform_real.py:30-35, normal_real.py:24-27,
nominal_integer.py:19-21, uniform_integer.py:21-26, nominal_categorical.py:20-22, discrete_categorical.py:28-30,
nominal_composition.py:27-29, empirical_formula.py:37-39, smiles_value.py:20-22, inchi_value.py:19-21, real_bounds.py:26-33,
integer_bounds.py:25-30, categorical_bounds.py:23-25, composition_bounds.py:24-26, molecular_structure_bounds.py (no attributes). -/
def table : List (String × Cls) :=
  [("property", ⟨attributeArgs .propertyTemplate, none⟩),
   ("condition", ⟨attributeArgs .conditionTemplate, none⟩),
   ("parameter", ⟨attributeArgs .parameterTemplate, none⟩),
   ("property_and_conditions",
      ⟨[⟨"property", some .none, .obj ["property"] .typeError⟩, ⟨"conditions", some .none, .objList ["condition"]⟩], none⟩),
   ("file_link", ⟨[⟨"filename", none, .raw⟩, ⟨"url", none, .raw⟩], none⟩),
   ("performed_source", ⟨[⟨"performed_by", some .none, .optStr⟩, ⟨"performed_date", some .none, .optStr⟩], none⟩),
   ("nominal_real", ⟨[⟨"units", some .none, .units⟩, ⟨"nominal", some .none, .nominal⟩], none⟩),
   ("uniform_real",
      ⟨[⟨"units", some .none, .units⟩, ⟨"lower_bound", some .none, .raw⟩, ⟨"upper_bound", some .none, .raw⟩], some .assertionError⟩),
   ("normal_real", ⟨[⟨"units", some .none, .units⟩, ⟨"mean", some .none, .raw⟩, ⟨"std", some .none, .raw⟩], none⟩),
   ("nominal_integer", ⟨[⟨"nominal", none, .intLike⟩], none⟩),
   ("uniform_integer", ⟨[⟨"lower_bound", none, .intLike⟩, ⟨"upper_bound", none, .intLike⟩], some .valueError⟩),
   ("nominal_categorical", ⟨[⟨"category", some .none, .optStr⟩], none⟩),
   ("discrete_categorical", ⟨[⟨"probabilities", some .none, .probabilities⟩], none⟩),
   ("nominal_composition", ⟨[⟨"quantities", some .none, .quantities⟩], none⟩),
   ("empirical_formula", ⟨[⟨"formula", some .none, .formula⟩], none⟩),
   ("smiles", ⟨[⟨"smiles", some .none, .optStr⟩], none⟩),
   ("inchi", ⟨[⟨"inchi", some .none, .inchi⟩], none⟩),
   ("real_bounds",
      ⟨[⟨"default_units", none, .units⟩, ⟨"lower_bound", none, .bound⟩, ⟨"upper_bound", none, .bound⟩], some .valueError⟩),
   ("integer_bounds", ⟨[⟨"lower_bound", none, .intBound⟩, ⟨"upper_bound", none, .intBound⟩], some .valueError⟩),
   ("categorical_bounds", ⟨[⟨"categories", some .none, .strSet⟩], none⟩),
   ("composition_bounds", ⟨[⟨"components", some .none, .strSet⟩], none⟩),
   ("molecular_structure_bounds", ⟨[], none⟩)]

/-- the argument given, or the default; TypeError if a required argument is missing -/
def given (kwargs : List (String × V)) (a : Arg) : Except PyErr V :=
  match Dict.get? kwargs a.name with
  | some v => .ok v
  | none => match a.dflt with
    | some d => .ok d
    | none => .error .typeError

/-- bind all arguments (a missing one is noticed before any setter runs) -/
def bindArgs (kwargs : List (String × V)) : List Arg → Except PyErr (List (Kind × V))
  | [] => .ok []
  | a :: as => match given kwargs a with
    | .error e => .error e
    | .ok v => match bindArgs kwargs as with
      | .error e => .error e
      | .ok vs => .ok ((a.kind, v) :: vs)

/-- run the setters -/
def setAll (env : Env) (m : Mem) : List (Kind × V) → Except PyErr (List V)
  | [] => .ok []
  | (k, v) :: rest => match conv env m k v with
    | .error e => .error e
    | .ok w => match setAll env m rest with
      | .error e => .error e
      | .ok ws => .ok (w :: ws)

/-- `lower_bound <= upper_bound` (uniform_real.py:34-35, uniform_integer.py:58-63, integer_bounds.py:57-59, real_bounds.py:60-62).
Bounds of a UniformReal that are not numbers are here a TypeError. -/
def inOrder (e : PyErr) (fields : List (String × V)) : Except PyErr Unit :=
  match (Dict.get? fields "lower_bound").bind num, (Dict.get? fields "upper_bound").bind num with
  | some a, some b => if a ≤ b then .ok () else .error e
  | _, _ => .error .typeError

/-- the check of a class -/
def checkOrder (c : Cls) (fields : List (String × V)) : Except PyErr Unit := match c.ordered with
  | some e => inOrder e fields
  | none => .ok ()

/-- the names of the attributes -/
def Cls.names (c : Cls) : List String := c.args.map Arg.name

/-- `cls(**kwargs)` for an object that is a value -/
def construct (env : Env) (m : Mem) (typ : String) (c : Cls) (kwargs : List (String × V)) : Except PyErr V :=
  match bindArgs kwargs c.args with
  | .error e => .error e
  | .ok bound => match setAll env m bound with
    | .error e => .error e
    | .ok vals => match checkOrder c (c.names.zip vals) with
      | .error e => .error e
      | .ok _ => .ok (.obj typ c.names vals)

/-! ## The constructors of entities -/

/-- an argument of the constructor of an entity: its name, the attribute, the default, the setter -/
structure EArg where
  name : String
  attr : String
  dflt : Option V
  kind : Kind

/-- the arguments all objects have (base_object.py:37-51, base_entity.py:17-22); `uids` is treated apart -/
def objectArgs : List EArg :=
  [⟨"tags", "_tags", some .none, .strList⟩, ⟨"notes", "notes", some .none, .raw⟩, ⟨"name", "_name", none, .str⟩,
   ⟨"file_links", "_file_links", some .none, .objList ["file_link"]⟩]
/-- has_conditions.py:28-32 -/
def conditionsArg : EArg := ⟨"conditions", "_conditions", some .none, .objList ["condition"]⟩
/-- has_parameters.py -/
def parametersArg : EArg := ⟨"parameters", "_parameters", some .none, .objList ["parameter"]⟩
/-- has_quantities.py:16-32 -/
def quantityArgs : List EArg :=
  [⟨"mass_fraction", "_mass_fraction", some .none, .optObj continuousTypes⟩,
   ⟨"volume_fraction", "_volume_fraction", some .none, .optObj continuousTypes⟩,
   ⟨"number_fraction", "_number_fraction", some .none, .optObj continuousTypes⟩,
   ⟨"absolute_quantity", "_absolute_quantity", some .none, .optObj continuousTypes⟩]
/-- attribute_template.py:31-40 -/
def attributeTemplateArgs : List EArg :=
  [⟨"tags", "_tags", some .none, .strList⟩, ⟨"name", "name", none, .strName⟩, ⟨"description", "description", some .none, .raw⟩,
   ⟨"bounds", "_bounds", some .none, .obj boundsTypes .valueError⟩]
/-- base_template.py:33-41 -/
def templateArgs : List EArg :=
  [⟨"tags", "_tags", some .none, .strList⟩, ⟨"name", "name", none, .raw⟩, ⟨"description", "description", some .none, .raw⟩]
/-- has_property_templates.py:30-34 -/
def propertyRanges : EArg := ⟨"properties", "_properties", some .none, .ranges .propertyTemplate⟩
/-- has_condition_templates.py:28-32 -/
def conditionRanges : EArg := ⟨"conditions", "_conditions", some .none, .ranges .conditionTemplate⟩
/-- has_parameter_templates.py:28-32 -/
def parameterRanges : EArg := ⟨"parameters", "_parameters", some .none, .ranges .parameterTemplate⟩
/-- a pointer to an entity of the given class -/
def pointer (name attr : String) (c : ECls) : EArg := ⟨name, attr, some .none, .target [c]⟩

/-- The arguments of each entity class: attribute_template.py:31-40, material_template.py:39-45, process_template.py:53-66,
measurement_template.py:55-62, material_spec.py:52-68, process_spec.py:54-77, ingredient_spec.py:59-86, measurement_spec.py:51-65,
material_run.py:49-68, process_run.py:58-79, ingredient_run.py:59-84 (no `name`, no `labels`), measurement_run.py:63-85. -/
def eargs : ECls → List EArg
  | .propertyTemplate => attributeTemplateArgs
  | .conditionTemplate => attributeTemplateArgs
  | .parameterTemplate => attributeTemplateArgs
  | .materialTemplate => templateArgs ++ [propertyRanges]
  | .processTemplate => templateArgs ++ [conditionRanges, parameterRanges,
      ⟨"allowed_names", "_allowed_names", some .none, .strList⟩, ⟨"allowed_labels", "_allowed_labels", some .none, .strList⟩]
  | .measurementTemplate => templateArgs ++ [propertyRanges, conditionRanges, parameterRanges]
  | .materialSpec => objectArgs ++ [pointer "template" "_template" .materialTemplate,
      ⟨"properties", "_properties", some .none, .objList ["property_and_conditions"]⟩, pointer "process" "_process" .processSpec]
  | .processSpec => objectArgs ++ [pointer "template" "_template" .processTemplate, parametersArg, conditionsArg]
  | .ingredientSpec => objectArgs ++ quantityArgs ++ [⟨"labels", "_labels", some .none, .strList⟩,
      pointer "material" "_material" .materialSpec, pointer "process" "_process" .processSpec]
  | .measurementSpec => objectArgs ++ [pointer "template" "_template" .measurementTemplate, parametersArg, conditionsArg]
  | .materialRun => objectArgs ++ [pointer "spec" "_spec" .materialSpec, pointer "process" "_process" .processRun,
      ⟨"sample_type", "_sample_type", some (.str "unknown"), .enum sampleTypes⟩]
  | .processRun => objectArgs ++ [pointer "spec" "_spec" .processSpec, conditionsArg, parametersArg,
      ⟨"source", "_source", some .none, .optObj ["performed_source"]⟩]
  | .ingredientRun => objectArgs.eraseIdx 2 ++ [pointer "spec" "_spec" .ingredientSpec] ++ quantityArgs ++
      [pointer "material" "_material" .materialRun, pointer "process" "_process" .processRun]
  | .measurementRun => objectArgs ++ [pointer "spec" "_spec" .measurementSpec,
      ⟨"properties", "_properties", some .none, .objList ["property"]⟩, conditionsArg, parametersArg,
      ⟨"source", "_source", some .none, .optObj ["performed_source"]⟩, pointer "material" "_material" .materialRun]

/-- the attributes a constructor sets without an argument: the back references, and the name and labels of an ingredient run
(material_run.py:64, process_run.py:78-79, process_spec.py:76-77, base_object.py:46, ingredient_run.py:74) -/
def ownFields : ECls → List (String × V)
  | .materialRun => [("_measurements", .list [])]
  | .processRun => [("_ingredients", .list []), ("_output_material", .none)]
  | .processSpec => [("_output_material", .none), ("_ingredients", .list [])]
  | .ingredientRun => [("_name", .none), ("_labels", .none)]
  | _ => []

/-- pairs of strings -/
def stringPairs : List V → List V → Option (List (String × String))
  | [], [] => some []
  | .str k :: ks, .str v :: vs => (stringPairs ks vs).map ((k, v) :: ·)
  | _, _ => none

/-- do two of the scopes differ in case only? -/
def clash (lower : String → String) : List String → Bool
  | [] => false
  | s :: ss => ss.any (fun t => decide (lower s = lower t)) || clash lower ss

/-- the setter of `uids` (base_entity.py:51-59) and CaseInsensitiveDict.__init__ (case_insensitive_dict.py: C02). Only dictionaries of
strings and None are modelled. -/
def convUids (env : Env) : V → Except PyErr (List (String × String))
  | .none => .ok []
  | .dict ks vs => match stringPairs ks vs with
    | some ps => if clash env.lower (ps.map Prod.fst) then .error .valueError else .ok ps
    | none => .error .other
  | _ => .error .other

/-- as `Arg` -/
def EArg.arg (a : EArg) : Arg := ⟨a.name, a.dflt, a.kind⟩

/-- change a field of an entity -/
def setField (m : Mem) (o : Nat) (attr : String) (f : V → V) : Mem :=
  match m[o]? with
  | some x => m.set o { x with fields := x.fields.map (fun g => if g.1 = attr then (g.1, f g.2) else g) }
  | none => m

/-- `l.append(v)` -/
def appendTo (w : V) : V → V
  | .list l => .list (l ++ [w])
  | v => v

/-- the attribute that points to the other end of a bidirectional link, and the attribute there that points back -/
def backRef : ECls → Option (String × String)
  | .materialSpec => some ("_process", "_output_material")
  | .materialRun => some ("_process", "_output_material")
  | .ingredientSpec => some ("_process", "_ingredients")
  | .ingredientRun => some ("_process", "_ingredients")
  | .measurementRun => some ("_material", "_measurements")
  | _ => none

/-- the new entity `o` becomes known to what it points to (material_spec.py:105, material_run.py:84, ingredient_run.py:133,
ingredient_spec.py:127, measurement_run.py:101) -/
def linkBack (m : Mem) (o : Nat) (x : EObj) : Mem := match backRef x.cls with
  | some (there, back) => match Dict.get? x.fields there with
    | some (.ref p) => setField m p back (if back = "_output_material" then fun _ => .ref o else appendTo (.ref o))
    | _ => m
  | none => m

/-- the new object, before it is linked to others -/
def newEntity (env : Env) (m : Mem) (c : ECls) (kwargs : List (String × V)) : Except PyErr EObj :=
  match bindArgs kwargs ((eargs c).map EArg.arg) with
  | .error e => .error e
  | .ok bound => match setAll env m bound with
    | .error e => .error e
    | .ok vals => match convUids env ((Dict.get? kwargs "uids").getD .none) with
      | .error e => .error e
      | .ok uids => .ok { cls := c, uids := uids, fields := ((eargs c).map EArg.attr).zip vals ++ ownFields c }

/-- `cls(**kwargs)` for an entity: its number, and the memory afterwards. (An exception leaves nothing behind that can be reached from
outside, except a back reference set by a constructor that fails afterwards. Only MaterialRun's does that, with a wrong `sample_type`, material_run.py:67-68; that is modelled
in `Builders.new` and in Model/Heap.lean.) -/
def constructE (env : Env) (m : Mem) (c : ECls) (kwargs : List (String × V)) : Except PyErr (Nat × Mem) :=
  match newEntity env m c kwargs with
  | .error e => .error e
  | .ok x => .ok (m.length, linkBack (m ++ [x]) m.length x)

/-- `if name is not None: obj._name = name` and the same for the labels (ingredient_run.py:177-180); `validate_list(labels, str)` -/
def ingredientNames (kwargs : List (String × V)) (m : Mem) (o : Nat) : Except PyErr Mem :=
  let m1 := match (Dict.get? kwargs "name").getD .none with
    | .none => m
    | v => setField m o "_name" (fun _ => v)
  match (Dict.get? kwargs "labels").getD .none with
  | .none => .ok m1
  | v => match convList isStr v with
    | .error e => .error e
    | .ok l => .ok (setField m1 o "_labels" (fun _ => l))

/-- `cls.from_dict(d)` (dict_serializable.py:58-85; ingredient_run.py:157-181): names that are not arguments are ignored -/
def fromDictE (env : Env) (m : Mem) (c : ECls) (d : List (String × V)) : Except PyErr (Nat × Mem) :=
  match constructE env m c d with
  | .error e => .error e
  | .ok (o, m') => if c = .ingredientRun then
      match ingredientNames d m' o with
      | .error e => .error e
      | .ok m'' => .ok (o, m'')
    else .ok (o, m')

/-! ## `as_dict` -/

/-- the dictionary of uids -/
def uidsDict (u : List (String × String)) : V := .dict (u.map (fun p => .str p.1)) (u.map (fun p => .str p.2))

/-- `as_dict()` (dict_serializable.py:95-108). The order, that of a set, is here that of the attributes; uids and the type come first. -/
def asDict (m : Mem) (x : EObj) : List (String × V) :=
  ("type", .str (Equal.typ x.cls)) :: ("uids", uidsDict x.uids) ::
    (x.fields.filter (fun f => decide (f.1 ∉ skip x.cls))).map (fun f => (Equal.lstrip f.1, getattr m x f))

end Verif.Schema
