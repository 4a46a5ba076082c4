import Verif.Model.Json
/-!
# Model of `repr` of gemd objects (gemd/entity/dict_serializable.py:151-186, link_by_uid.py:29-30)

A text is modelled by its tree, as in Model/Json.lean: a value without entities, objects and links, which have become dictionaries. The text
`<MaterialRun 'name'>` is modelled by a pair of the class name and the name. The keys of an object are shown in the order of a set, here that of the attributes.
-/

namespace Verif.Repr
open Verif.Py Verif.Value Verif.Schema Verif.Json

/-- `type(entity).__name__` -/
def className : ECls → String
  | .propertyTemplate => "PropertyTemplate" | .conditionTemplate => "ConditionTemplate" | .parameterTemplate => "ParameterTemplate"
  | .materialTemplate => "MaterialTemplate" | .processTemplate => "ProcessTemplate" | .measurementTemplate => "MeasurementTemplate"
  | .materialSpec => "MaterialSpec" | .processSpec => "ProcessSpec" | .ingredientSpec => "IngredientSpec"
  | .measurementSpec => "MeasurementSpec" | .materialRun => "MaterialRun" | .processRun => "ProcessRun"
  | .ingredientRun => "IngredientRun" | .measurementRun => "MeasurementRun"

/-- `getattr(entity, 'name', '<unknown name>')` of an entity -/
def nameOf (m : Mem) (x : EObj) : V := (Dict.get? (asDict m x) "name").getD (.str "<unknown name>")

/-- the text `<cls 'name'>` (dict_serializable.py:186) -/
def tag (cls : String) (name : V) : V := .tuple [.str cls, name]

mutual
/-- `_name_repr` (dict_serializable.py:161-186). Of a value object the class is given by its `typ`; iterating over a dictionary gives its keys; a string consists of
strings, so that the recursion ends only if it is empty. -/
def nameRepr (m : Mem) : V → Except PyErr V
  | .list l => match nameReprs m l with
    | .error e => .error e
    | .ok l' => .ok (.list l')
  | .tuple l => match nameReprs m l with
    | .error e => .error e
    | .ok l' => .ok (.list l')
  | .dict ks _ => match nameReprs m ks with
    | .error e => .error e
    | .ok l' => .ok (.list l')
  | .str s => if s = "" then .ok (.list []) else .error .other
  | .none => .ok .none
  | .ref o => match m[o]? with
    | some x => .ok (tag (className x.cls) (nameOf m x))
    | none => .error .other
  | .link _ _ => .ok (tag "LinkByUID" (.str "<unknown name>"))
  | .obj t ns vs => .ok (tag t ((Dict.get? (ns.zip vs) "name").getD (.str "<unknown name>")))
  | .bool _ => .ok (tag "bool" (.str "<unknown name>"))
  | .int _ => .ok (tag "int" (.str "<unknown name>"))
  | .float _ => .ok (tag "float" (.str "<unknown name>"))
def nameReprs (m : Mem) : List V → Except PyErr (List V)
  | [] => .ok []
  | v :: vs => match nameRepr m v with
    | .error e => .error e
    | .ok w => match nameReprs m vs with
      | .error e => .error e
      | .ok ws => .ok (w :: ws)
end

section
variable (E : Nat → Except PyErr V)

mutual
/-- `repr(v)`; `E` is `repr` of entities -/
def rep : V → Except PyErr V
  | .list l => match reps l with
    | .error e => .error e
    | .ok l' => .ok (.list l')
  | .tuple l => match reps l with
    | .error e => .error e
    | .ok l' => .ok (.tuple l')
  | .dict ks vs => match reps ks with
    | .error e => .error e
    | .ok ks' => match reps vs with
      | .error e => .error e
      | .ok vs' => .ok (.dict ks' vs')
  | .obj t ns vs => match reps vs with
    | .error e => .error e
    | .ok vs' => .ok (mkDict (ns.zip vs' ++ [("type", .str t)]))
  | .link s i => .ok (mkDict [("scope", .str s), ("id", .str i)])
  | .ref o => E o
  | .none => .ok .none
  | .bool b => .ok (.bool b)
  | .int i => .ok (.int i)
  | .float q => .ok (.float q)
  | .str s => .ok (.str s)
def reps : List V → Except PyErr (List V)
  | [] => .ok []
  | v :: vs => match rep v with
    | .error e => .error e
    | .ok w => match reps vs with
      | .error e => .error e
      | .ok ws => .ok (w :: ws)
end
end

/-- `getattr(self, key, None)` for a key of `skip` -/
def backRef (x : EObj) (k : String) : V := (Dict.get? x.fields k).getD .none

/-- lines 152-157, for an entity that is nested in at most `k - 1` others. If there is no entity that contains itself then the nesting is less deep than there are
entities; if there is one then Python raises RecursionError. -/
def repRef (m : Mem) : Nat → Nat → Except PyErr V
  | 0, _ => .error .other
  | k + 1, o => match m[o]? with
    | none => .error .other
    | some x => match reps (repRef m k) ((asDict m x).map Prod.snd) with
      | .error e => .error e
      | .ok vs => match nameReprs m ((skip x.cls).map (backRef x)) with
        | .error e => .error e
        | .ok bs => .ok (mkDict (((asDict m x).map Prod.fst).zip vs ++ ((skip x.cls).map Equal.lstrip).zip bs))

/-- `repr(v)` -/
def reprV (m : Mem) (v : V) : Except PyErr V := rep (repRef m (m.length + 1)) v

end Verif.Repr
