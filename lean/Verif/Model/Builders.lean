import Verif.Model.Instance
/-!
# Model of the builders `make_node`, `add_edge`, `add_measurement`, `add_attribute` (gemd/builders/impl.py:26-296)

The memory holds the entities. Each function returns the memory afterwards, also if it raises. The checks that depend on the validation level (has_quantities.py:34-44 and
114-136; has_template_check_generator.py:62-76) are given: `check attr v` says what happens when `v` is stored in, or appended to, the attribute `attr`.
-/

namespace Verif.Builders
open Verif.Py Verif.Value Verif.Schema Verif.Instance

/-- the memory afterwards, and what is returned or raised -/
abbrev Ret (α : Type) := Mem × Except PyErr α

/-- one statement after another -/
def andThen {α β : Type} : Ret α → (Mem → α → Ret β) → Ret β
  | (m, .ok a), f => f m a
  | (m, .error e), _ => (m, .error e)

/-- `cls(**kwargs)` for an entity, with the memory after a failure: MaterialRun.__init__ sets `process` before `sample_type` (material_run.py:67-68), so a wrong `sample_type`
leaves the process with an output material. All other constructors set the reference to be answered last. -/
def new (env : Env) (m : Mem) (c : ECls) (kwargs : List (String × V)) : Ret Nat := match newEntity env m c kwargs with
  | .ok x => (linkBack (m ++ [x]) m.length x, .ok m.length)
  | .error e => match newEntity env m c (kwargs.filter fun k => decide (k.1 ≠ "sample_type")) with
    | .ok x => (linkBack (m ++ [{ x with fields := Dict.set x.fields "_sample_type" .none }]) m.length x, .error e)
    | .error _ => (m, .error e)

/-- `x.name`: of an entity, or of an attribute -/
def nameOf (m : Mem) : V → Except PyErr V
  | .ref o => match m[o]? with
    | some x => match Dict.get? x.fields "name", Dict.get? x.fields "_name" with
      | some v, _ => .ok v
      | none, some v => .ok (getattr m x ("_name", v))
      | none, none => .error .attributeError
    | none => .error .other
  | .obj _ names vals => match Dict.get? (names.zip vals) "name" with
    | some v => .ok v
    | none => .error .attributeError
  | _ => .error .attributeError

/-- lines 55-59 of `make_node`: the name of the process -/
def processName (m : Mem) (name given template : V) : Except PyErr V := match given with
  | .none => match template with
    | .none => .ok name
    | t => nameOf m t
  | v => .ok v

/-- `make_node(name, process_name=, process_template=, material_template=)` (builders/impl.py:26-82) -/
def makeNode (env : Env) (name given processTemplate materialTemplate : V) (m : Mem) : Ret Nat := match processName m name given processTemplate with
  | .error e => (m, .error e)
  | .ok pn =>
    andThen (new env m .processSpec [("name", pn), ("template", processTemplate)]) fun m1 ps =>
    andThen (new env m1 .processRun [("name", pn), ("spec", .ref ps)]) fun m2 pr =>
    andThen (new env m2 .materialSpec [("name", name), ("process", .ref ps), ("template", materialTemplate)]) fun m3 ms =>
    new env m3 .materialRun [("name", name), ("process", .ref pr), ("spec", .ref ms)]

/-- an attribute of an entity; AttributeError if it has none of that name, or is no entity -/
def attrOf (m : Mem) (v : V) (attr : String) : Except PyErr V := match v with
  | .ref o => match peek m o attr with
    | some w => .ok w
    | none => .error .attributeError
  | _ => .error .attributeError

/-- the arguments of `add_edge` after the first two -/
structure EdgeArgs where
  name : V
  mass : V
  number : V
  volume : V
  absolute : V
  units : V

/-- lines 141-146 of `add_edge`: the process of the output's spec and the process of the output -/
def outputOf (m : Mem) (output : V) : Except PyErr (V × V) := match attrOf m output "_spec" with
  | .error e => .error e
  | .ok os => if isCls m [.materialSpec] os then match attrOf m os "_process" with
      | .error e => .error e
      | .ok .none => .error .valueError
      | .ok ps => match attrOf m output "_process" with
        | .error e => .error e
        | .ok .none => .error .valueError
        | .ok pr => .ok (ps, pr)
    else .error .valueError

/-- lines 147-148: the spec of the input -/
def inputOf (m : Mem) (input : V) : Except PyErr V := match attrOf m input "_spec" with
  | .error e => .error e
  | .ok .none => .error .valueError
  | .ok s => .ok s

/-- `if isinstance(v, float): v = NominalReal(nominal=v, units=units)` -/
def asValue (env : Env) (m : Mem) (units v : V) : Except PyErr V := match v with
  | .float _ => match Dict.get? table "nominal_real" with
    | some c => construct env m "nominal_real" c [("nominal", v), ("units", units)]
    | none => .error .other
  | v => .ok v

/-- the setters of quantities (has_quantities.py:51-140) for what is not None -/
def setQuantity (check : String → V → Except PyErr Unit) (m : Mem) (r : Nat) (attr : String) (v : V) : Ret Unit :=
  if isTyp continuousTypes v then match check attr v with
    | .error e => (m, .error e)
    | .ok _ => (setField m r attr (fun _ => v), .ok ())
  else (m, .error .typeError)

/-- lines 161-174: a fraction -/
def giveFraction (env : Env) (check : String → V → Except PyErr Unit) (m : Mem) (r : Nat) (attr : String) (v : V) : Ret Unit := match v with
  | .none => (m, .ok ())
  | v => match asValue env m (.str "") v with
    | .error e => (m, .error e)
    | .ok w => setQuantity check m r attr w

/-- lines 176-182: the absolute quantity -/
def giveAbsolute (env : Env) (check : String → V → Except PyErr Unit) (m : Mem) (r : Nat) (v units : V) : Ret Unit := match v with
  | .none => (m, .ok ())
  | .float x => if units = .none then (m, .error .valueError) else match asValue env m units (.float x) with
    | .error e => (m, .error e)
    | .ok w => setQuantity check m r "_absolute_quantity" w
  | v => setQuantity check m r "_absolute_quantity" v

/-- lines 184-186: units that were not used -/
def leftUnits (v units : V) : Bool := match v with
  | .float _ => false
  | _ => decide (units ≠ .none)

/-- lines 150-151: the name given, or that of the input -/
def edgeName (m : Mem) (input name : V) : Except PyErr V := match name with
  | .none => nameOf m input
  | n => .ok n

/-- lines 161-188 of `add_edge`: the quantities -/
def giveQuantities (env : Env) (check : String → V → Except PyErr Unit) (a : EdgeArgs) (m : Mem) (r : Nat) : Ret Nat :=
  andThen (giveFraction env check m r "_mass_fraction" a.mass) fun m1 _ =>
  andThen (giveFraction env check m1 r "_number_fraction" a.number) fun m2 _ =>
  andThen (giveFraction env check m2 r "_volume_fraction" a.volume) fun m3 _ =>
  andThen (giveAbsolute env check m3 r a.absolute a.units) fun m4 _ =>
  if leftUnits a.absolute a.units then (m4, .error .valueError) else (m4, .ok r)

/-- `add_edge(input_material, output_material, ...)` (builders/impl.py:85-188) -/
def addEdge (env : Env) (check : String → V → Except PyErr Unit) (input output : V) (a : EdgeArgs) (m : Mem) : Ret Nat := match outputOf m output with
  | .error e => (m, .error e)
  | .ok (ps, pr) => match inputOf m input with
    | .error e => (m, .error e)
    | .ok is => match edgeName m input a.name with
      | .error e => (m, .error e)
      | .ok n =>
        andThen (new env m .ingredientSpec [("name", n), ("process", ps), ("material", is)]) fun m1 s =>
        andThen (new env m1 .ingredientRun [("spec", .ref s), ("process", pr), ("material", input)]) fun m2 r =>
        giveQuantities env check a m2 r

/-- the list an attribute belongs in (lines 238-243) -/
def listFor : V → Option String
  | .obj "property" _ _ => some "_properties"
  | .obj "condition" _ _ => some "_conditions"
  | .obj "parameter" _ _ => some "_parameters"
  | _ => none

/-- lines 236-245: `for attribute in attributes: ...` -/
def giveAttributes (check : String → V → Except PyErr Unit) (r : Nat) : List V → Mem → Ret Nat
  | [], m => (m, .ok r)
  | v :: vs, m => match listFor v with
    | none => (m, .error .valueError)
    | some l => match check l v with
      | .error e => (m, .error e)
      | .ok _ => giveAttributes check r vs (setField m r l (appendTo v))

/-- lines 227-231: the name of a measurement -/
def measurementName (m : Mem) (name template : V) : Except PyErr V := match name with
  | .none => match template with
    | .none => .error .valueError
    | t => nameOf m t
  | n => .ok n

/-- `add_measurement(material, name=, template=, attributes=)` (builders/impl.py:191-247). `attributes` is None or a list; other things that can be iterated over are not
modelled. -/
def addMeasurement (env : Env) (check : String → V → Except PyErr Unit) (material name template : V) (attributes : Option (List V)) (m : Mem) : Ret Nat :=
  match measurementName m name template with
  | .error e => (m, .error e)
  | .ok n =>
    andThen (new env m .measurementSpec [("name", n), ("template", template)]) fun m1 s =>
    andThen (new env m1 .measurementRun [("name", n), ("spec", .ref s), ("material", material)]) fun m2 r =>
    giveAttributes check r (attributes.getD []) m2

/-! ## `add_attribute` -/

/-- the classes that are HasProperties, HasConditions, HasParameters (measurement_run.py:20-22, process_run.py, process_spec.py, measurement_spec.py) -/
def hasList : ECls → String → Bool
  | .measurementRun, l => decide (l ∈ ["_properties", "_conditions", "_parameters"])
  | .measurementSpec, l => decide (l ∈ ["_conditions", "_parameters"])
  | .processRun, l => decide (l ∈ ["_conditions", "_parameters"])
  | .processSpec, l => decide (l ∈ ["_conditions", "_parameters"])
  | _, _ => false

/-- `l.append(v)` with its check -/
def appendAttr (check : String → V → Except PyErr Unit) (m : Mem) (o : Nat) (l : String) (v a : V) : Ret V := match check l v with
  | .error e => (m, .error e)
  | .ok _ => (setField m o l (appendTo v), .ok a)

/-- `PropertyAndConditions(property=a)` -/
def withConditions (a : V) : V := .obj "property_and_conditions" ["property", "conditions"] [a, .list []]

/-- `pac.conditions.append(a)` -/
def addCondition (a : V) : V → V
  | .obj t [n1, n2] [p, .list cs] => .obj t [n1, n2] [p, .list (cs ++ [a])]
  | v => v

/-- change the last element -/
def onLast (f : V → V) : V → V
  | .list l => .list (l.dropLast ++ (l.getLast?.map f).toList)
  | v => v

/-- lines 276-285: a MaterialSpec. Two specs may share a PropertyAndConditions object; here each has its own. -/
def addToSpec (check : String → V → Except PyErr Unit) (m : Mem) (o : Nat) (a : V) : Ret V := match listFor a with
  | some "_properties" => appendAttr check m o "_properties" (withConditions a) a
  | some "_conditions" => if peek m o "_properties" = some (.list []) then (m, .error .valueError)
    else (setField m o "_properties" (onLast (addCondition a)), .ok a)
  | _ => (m, .error .valueError)

/-- `add_attribute(target, template, value)` (builders/impl.py:250-296); `made` is what `make_attribute` does (C51) -/
def addAttribute (check : String → V → Except PyErr Unit) (made : Except PyErr V) (target : V) (m : Mem) : Ret V := match made with
  | .error e => (m, .error e)
  | .ok a => match target with
    | .ref o => match m[o]? with
      | some x => if x.cls = .materialSpec then addToSpec check m o a else match listFor a with
        | some l => if hasList x.cls l then appendAttr check m o l a a else (m, .error .valueError)
        | none => (m, .error .valueError)
      | none => (m, .error .other)
    | _ => (m, .error .valueError)

end Verif.Builders
