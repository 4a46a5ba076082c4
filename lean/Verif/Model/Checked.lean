import Verif.Model.Json
import Verif.Model.Level
/-!
# Loading with the checks against templates

Model/Schema.lean and Model/Json.lean build objects at validation level IGNORE. Here the checks are added: when an attribute or an entity is
built while loading, its values are held against the bounds of the templates, and the level decides what happens.

Simplifications. In the code a check runs inside the setter, among the other setters of the constructor; here all checks of an object run
after it has been built. If both a setter and a check would raise, the model reports the setter's exception; otherwise nothing differs, since a
constructor that raises leaves nothing behind. Whether a value is within bounds (C05 to C11) and whether two templates are equal (C31 to C34) is
given by parameters. Warnings are not counted.
-/

namespace Verif.Checked
open Verif.Py Verif.Value Verif.Schema Verif.Json Verif.Level

/-- What the checks use: `bounds.contains(value)` (bounds/base_bounds.py:23-49 and the subclasses), `RealBounds(0, 1, '').contains(value)` (has_quantities.py:36),
the two `contains` of the setter of `absolute_quantity` (has_quantities.py:103-118; the answer is whether there is something to
complain about), and `==` between templates and links (base_entity.py, link_by_uid.py). -/
structure Judge where
  within : V → V → Except PyErr Bool
  fraction : V → Except PyErr Bool
  amount : V → Except PyErr Bool
  same : Mem → V → V → Bool

/-- what the level makes of the answer of a check (base_attribute.py:60-67, has_quantities.py:37-44,
has_template_check_generator.py:79-89): at IGNORE it is not asked for; at WARNING a refusal is logged, at FATAL it is a ValueError. An
exception in the check itself comes through at both. -/
def verdict : Level → Except PyErr Bool → Except PyErr Unit
  | .ignore, _ => .ok ()
  | _, .error e => .error e
  | _, .ok true => .ok ()
  | .warning, .ok false => .ok ()
  | .fatal, .ok false => .error .valueError

/-- the attribute `n` of an object that is a value -/
def attr (ns : List String) (vs : List V) (n : String) : V := (Dict.get? (ns.zip vs) n).getD .none

/-- the attribute `n` of an entity -/
def field (m : Mem) (v : V) (n : String) : V := match v with
  | .ref o => match m[o]? with
    | some x => (Dict.get? x.fields n).getD .none
    | none => .none
  | _ => .none

/-- the classes of attributes -/
def attributeTypes : List String := ["property", "condition", "parameter"]

/-- `_check` of an attribute (base_attribute.py:59-67): it runs when the template is set and there is a value (base_attribute.py:52-53, 96-99), if the
template is not a link -/
def attrGuard (J : Judge) (l : Level) (m : Mem) (template value : V) : Except PyErr Unit := match template with
  | .ref o => if value = .none then .ok () else verdict l (J.within (field m (.ref o) "_bounds") value)
  | _ => .ok ()

/-- the template of an object: its own (has_template.py:30-43) or that of its spec (has_spec.py:41-47) -/
def templateOf (m : Mem) (c : ECls) (v : V) : V := match c with
  | .materialSpec | .processSpec | .measurementSpec => field m v "_template"
  | .processRun | .measurementRun => field m (field m v "_spec") "_template"
  | _ => .none

/-- the lists of attributes that are checked, with the class of their templates (process_spec.py, process_run.py, measurement_spec.py,
measurement_run.py, material_spec.py:80-85; has_conditions.py:28-32 and siblings). The object template has lists of the same names. -/
def checkedLists : ECls → List (String × ECls)
  | .materialSpec => [("_properties", .propertyTemplate)]
  | .processSpec | .measurementSpec | .processRun => [("_parameters", .parameterTemplate), ("_conditions", .conditionTemplate)]
  | .measurementRun => [("_properties", .propertyTemplate), ("_conditions", .conditionTemplate), ("_parameters", .parameterTemplate)]
  | _ => []

/-- the members of a list -/
def items : V → List V
  | .list l => l
  | _ => []

/-- an entry `[attribute template or link, bounds or None]` of an object template -/
def entry : V → Option (V × V)
  | .list [a, b] => some (a, b)
  | _ => none

/-- `name == x[0].name`: the name of an attribute template is a string (attribute_template.py:31-40) -/
def nameIs : V → V → Bool
  | .str s, .str t => decide (s = t)
  | _, _ => false

/-- template, name and value of an attribute as the check sees them; those of its property for a PropertyAndConditions (has_property_templates.py:74-76) -/
def view : V → V × V × V
  | .obj t ns vs => if t = "property_and_conditions" then match attr ns vs "property" with
      | .obj _ ns' vs' => (attr ns' vs' "template", attr ns' vs' "name", attr ns' vs' "value")
      | _ => (.none, .none, .none)
    else (attr ns vs "template", attr ns vs "name", attr ns vs "value")
  | _ => (.none, .none, .none)

/-- the entry that applies (has_condition_templates.py:76-81 and siblings): a link has no `name`, so comparing names with one raises AttributeError -/
def applies (J : Judge) (m : Mem) (template name : V) : List V → Except PyErr (Option (V × V))
  | [] => .ok none
  | e :: es => match entry e with
    | none => applies J m template name es
    | some (a, b) =>
      if template ≠ .none then if J.same m template a then .ok (some (a, b)) else applies J m template name es
      else match a with
        | .ref o => if nameIs name (field m (.ref o) "name") then .ok (some (a, b)) else applies J m template name es
        | _ => .error .attributeError

/-- is the entity of the class? -/
def isOf (m : Mem) (k : ECls) : V → Bool
  | .ref o => match m[o]? with
    | some x => decide (x.cls = k)
    | none => false
  | _ => false

/-- `validate_condition` and its siblings (has_condition_templates.py:74-88, has_parameter_templates.py:74-88,
has_property_templates.py:72-90); also Model/Template.lean `validate` -/
def validate (J : Judge) (m : Mem) (k : ECls) (entries : List V) (a : V) : Except PyErr Bool :=
  match applies J m (view a).1 (view a).2.1 entries with
  | .error e => .error e
  | .ok none => .ok true
  | .ok (some (t, b)) =>
    if b ≠ .none then J.within b (view a).2.2
    else if isOf m k t then J.within (field m t "_bounds") (view a).2.2
    else .ok true

/-- run checks until one raises -/
def runAll : List (Except PyErr Unit) → Except PyErr Unit
  | [] => .ok ()
  | .error e :: _ => .error e
  | .ok _ :: rest => runAll rest

/-- `template_check` (has_template_check_generator.py:77-91) for each member of each list -/
def listGuards (J : Judge) (l : Level) (m : Mem) (c : ECls) (v : V) : List (Except PyErr Unit) :=
  match templateOf m c v with
  | .ref t => (checkedLists c).flatMap (fun n => (items (field m v n.1)).map (fun a =>
      verdict l (validate J m n.2 (items (field m (.ref t) n.1)) a)))
  | _ => []

/-- the classes with quantities (ingredient_spec.py, ingredient_run.py) -/
def hasQuantities : ECls → Bool
  | .ingredientSpec | .ingredientRun => true
  | _ => false

/-- the setter of `absolute_quantity` (has_quantities.py:96-125): at FATAL it raises a ValueError whatever the quantity is -/
def amountGuard (J : Judge) (l : Level) (v : V) : Except PyErr Unit := match l, J.amount v with
  | .ignore, _ => .ok ()
  | _, .error e => .error e
  | .warning, .ok _ => .ok ()
  | .fatal, .ok _ => .error .valueError

/-- the setters of the quantities (has_quantities.py:34-125); None is not checked -/
def quantityGuards (J : Judge) (l : Level) (m : Mem) (c : ECls) (v : V) : List (Except PyErr Unit) :=
  if hasQuantities c then
    (["_mass_fraction", "_volume_fraction", "_number_fraction"].map (fun n =>
      if field m v n = .none then .ok () else verdict l (J.fraction (field m v n)))) ++
    [if field m v "_absolute_quantity" = .none then .ok () else amountGuard J l (field m v "_absolute_quantity")]
  else []

/-- the checks of an object that has just been built -/
def guard (J : Judge) (l : Level) (m : Mem) : V → Except PyErr Unit
  | .obj t ns vs => if t ∈ attributeTypes then attrGuard J l m (attr ns vs "template") (attr ns vs "value") else .ok ()
  | .ref o => match m[o]? with
    | some x => runAll (listGuards J l m x.cls (.ref o) ++ quantityGuards J l m x.cls (.ref o))
    | none => .ok ()
  | _ => .ok ()

/-- `_load_and_index` (json/gemd_json.py:214-258) at a validation level. A link is not an object being built, whatever it is replaced by. -/
def loadAndIndexAt (J : Judge) (l : Level) (env : Env) (substitute : Bool) (d : List (String × V)) (st : Loading) : Except PyErr (V × Loading) :=
  match loadAndIndex env substitute d st with
  | .error e => .error e
  | .ok (v, st') =>
    if Dict.get? d "type" = some (.str "link_by_uid") then .ok (v, st')
    else match guard J l st'.mem v with
      | .error e => .error e
      | .ok _ => .ok (v, st')

/-- `loads` (json/gemd_json.py:57-88) at a validation level -/
def loadsAt (J : Judge) (l : Level) (env : Env) (m : Mem) (tree : V) : Except PyErr (V × Mem) :=
  match dec (loadAndIndexAt J l env true) tree { mem := m, index := [] } with
  | .error e => .error e
  | .ok (.dict ks vs, st) => match (strings ks).bind (fun names => Dict.get? (names.zip vs) "object") with
    | some v => .ok (v, st.mem)
    | none => .error .keyError
  | .ok (_, _) => .error .typeError

end Verif.Checked
