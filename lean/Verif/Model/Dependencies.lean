import Verif.Model.Schema
/-!
# Dependencies of an entity

`BaseEntity.all_dependencies` (`gemd/entity/base_entity.py:108-118`) walks over the classes that an object's class is derived from and collects what the
`_local_dependencies` of each returns. The class hierarchy is modelled as it is, with the method resolution order of Python (C3 linearization), since
`cls._local_dependencies` of a class without such a method is that of the next class in this order.

A set of entities and links is a list without repetitions: entities are hashed by identity (base_entity.py:225) and links by scope and id
(link_by_uid.py:80-81). That two different hashes may fall into the same slot, and equality be asked, does not matter to the result.
-/

namespace Verif.Dependencies
open Verif.Py Verif.Value Verif.Schema

/-- the classes that the classes of entities are derived from -/
inductive PyC where
  | entity (c : ECls)
  | baseObject | baseTemplate | attributeTemplate | baseEntity | dictSerializable
  | hasSpec | hasTemplate | hasProcess | hasMaterial | hasConditions | hasParameters | hasProperties
  | hasPropertyTemplates | hasConditionTemplates | hasParameterTemplates
  | hasQuantities | hasSource | hasTemplateCheckGenerator | hasDependencies | abc | object
  deriving DecidableEq

/-- `cls.__bases__`, as written in the class statements: base_object.py:12, base_template.py:12, attribute_template.py:8, base_entity.py:14,
dict_serializable.py:55, has_spec.py:14, has_template.py:13, has_process.py:13, has_material.py:13, has_conditions.py:16, has_parameters.py:16,
has_properties.py:16, has_property_templates.py:18, has_condition_templates.py:16, has_parameter_templates.py:16, has_quantities.py:13, has_source.py:7,
has_template_check_generator.py:16, has_dependencies.py:10, and those of the entities: material_run.py:17, material_spec.py:19, process_run.py:21-23,
process_spec.py:19-21, ingredient_run.py:20-22, ingredient_spec.py:18-20, measurement_run.py:22-23, measurement_spec.py:16-18, material_template.py:8,
process_template.py:10-12, measurement_template.py:10-12, property_template.py:6, condition_template.py:6, parameter_template.py:6 -/
def bases : PyC → List PyC
  | .entity .materialRun => [.baseObject, .hasSpec, .hasProcess]
  | .entity .materialSpec => [.baseObject, .hasTemplate, .hasProcess, .hasProperties]
  | .entity .processRun => [.baseObject, .hasSpec, .hasConditions, .hasParameters, .hasSource]
  | .entity .processSpec => [.baseObject, .hasTemplate, .hasParameters, .hasConditions]
  | .entity .ingredientRun => [.baseObject, .hasQuantities, .hasSpec, .hasMaterial, .hasProcess]
  | .entity .ingredientSpec => [.baseObject, .hasQuantities, .hasTemplate, .hasMaterial, .hasProcess]
  | .entity .measurementRun => [.baseObject, .hasMaterial, .hasSpec, .hasConditions, .hasProperties, .hasParameters, .hasSource]
  | .entity .measurementSpec => [.baseObject, .hasTemplate, .hasParameters, .hasConditions]
  | .entity .materialTemplate => [.baseTemplate, .hasPropertyTemplates]
  | .entity .processTemplate => [.baseTemplate, .hasConditionTemplates, .hasParameterTemplates]
  | .entity .measurementTemplate => [.baseTemplate, .hasPropertyTemplates, .hasConditionTemplates, .hasParameterTemplates]
  | .entity .propertyTemplate => [.attributeTemplate]
  | .entity .conditionTemplate => [.attributeTemplate]
  | .entity .parameterTemplate => [.attributeTemplate]
  | .baseObject => [.baseEntity]
  | .baseTemplate => [.baseEntity]
  | .attributeTemplate => [.baseEntity]
  | .baseEntity => [.dictSerializable]
  | .dictSerializable => [.abc]
  | .hasSpec => [.hasDependencies]
  | .hasTemplate => [.hasDependencies]
  | .hasProcess => [.hasDependencies]
  | .hasMaterial => [.hasDependencies, .abc]
  | .hasConditions => [.hasTemplateCheckGenerator, .hasDependencies, .abc]
  | .hasParameters => [.hasTemplateCheckGenerator, .hasDependencies, .abc]
  | .hasProperties => [.hasTemplateCheckGenerator, .hasDependencies, .abc]
  | .hasPropertyTemplates => [.hasDependencies]
  | .hasConditionTemplates => [.hasDependencies]
  | .hasParameterTemplates => [.hasDependencies]
  | .hasQuantities => [.object]
  | .hasSource => [.object]
  | .hasTemplateCheckGenerator => [.abc]
  | .hasDependencies => [.abc]
  | .abc => [.object]
  | .object => []

/-- Is there a `_local_dependencies` in the body of the class? -/
def hasOwn : PyC → Bool
  | .entity .materialSpec => true
  | .hasSpec | .hasTemplate | .hasProcess | .hasMaterial | .hasConditions | .hasParameters | .hasProperties
  | .hasPropertyTemplates | .hasConditionTemplates | .hasParameterTemplates | .hasDependencies => true
  | _ => false

/-! ### Method resolution order (The Python 2.3 Method Resolution Order; not part of the repository) -/

/-- the first head that is in no tail -/
def candidate (ls all : List (List PyC)) : Option PyC := match ls with
  | [] => none
  | [] :: rest => candidate rest all
  | (c :: _) :: rest => if all.any (fun l => decide (c ∈ l.tail)) then candidate rest all else some c

/-- the merge of lists -/
def merge : Nat → List (List PyC) → Option (List PyC)
  | 0, _ => none
  | n + 1, ls =>
    if ls.all List.isEmpty then some []
    else match candidate ls ls with
      | none => none
      | some c => (merge n (ls.map (fun l => if l.head? = some c then l.tail else l))).map (c :: ·)

/-- the orders of all members of a list -/
def allSome : List (Option (List PyC)) → Option (List (List PyC))
  | [] => some []
  | some a :: l => (allSome l).map (a :: ·)
  | none :: _ => none

/-- `cls.__mro__` -/
def mro : Nat → PyC → Option (List PyC)
  | 0, _ => none
  | n + 1, c => match allSome ((bases c).map (mro n)) with
    | none => none
    | some ls => (merge 40 (ls ++ [bases c])).map (c :: ·)

/-- where `cls._local_dependencies` is found; `none` if there is no such attribute -/
def method (c : PyC) : Option PyC := match mro 8 c with
  | some l => l.find? hasOwn
  | none => none

/-- `issubclass(cls, HasDependencies) and "_local_dependencies" not in cls.__abstractmethods__` (base_entity.py:114-115): the only abstract method of that name is
that of HasDependencies (has_dependencies.py:13-15) -/
def counts (c : PyC) : Bool := match mro 8 c with
  | some l => decide (PyC.hasDependencies ∈ l) && decide (method c ≠ some .hasDependencies)
  | none => false

/-- the methods that are called, one after the other: `queue.pop()` takes the last, its bases are put at the end (base_entity.py:111-117) -/
def called : Nat → List PyC → Option (List PyC)
  | 0, _ => none
  | n + 1, queue => match queue.getLast? with
    | none => some []
    | some c => match counts c, method c with
      | true, some d => (called n (queue.dropLast ++ bases c)).map (d :: ·)
      | _, _ => called n queue.dropLast

/-! ### The methods -/

/-- an attribute of the entity -/
def field (x : EObj) (attr : String) : Except PyErr V := match Dict.get? x.fields attr with
  | some v => .ok v
  | none => .error .attributeError

/-- `{v} if v is not None else set()` -/
def single (v : V) : List V := if v = .none then [] else [v]

/-- `attr.template` of a property, condition or parameter (base_attribute.py:86-89), and of a property with conditions
(property_and_conditions.py:51-54) -/
def attrField (name : String) : V → Except PyErr V
  | .obj _ ns vs => match Dict.get? (ns.zip vs) name with
    | some v => .ok v
    | none => .error .attributeError
  | _ => .error .attributeError

/-- see `attrField` -/
def templateOf (v : V) : Except PyErr V := match v with
  | .obj "property_and_conditions" ns vs => match attrField "property" (.obj "property_and_conditions" ns vs) with
    | .ok p => attrField "template" p
    | .error e => .error e
  | v => attrField "template" v

/-- `for v in l: if template(v) is not None: add it` -/
def templates (f : V → Except PyErr V) : List V → Except PyErr (List V)
  | [] => .ok []
  | v :: l => match f v with
    | .error e => .error e
    | .ok t => match templates f l with
      | .error e => .error e
      | .ok ts => .ok (single t ++ ts)

/-- a list of attributes -/
def attributes (x : EObj) (attr : String) : Except PyErr (List V) := match field x attr with
  | .ok (.list l) => templates templateOf l
  | .ok _ => .error .typeError
  | .error e => .error e

/-- `attr[0]` of a pair -/
def firstOf : V → Except PyErr V
  | .list (a :: _) => .ok a
  | .list [] => .error .indexError
  | _ => .error .typeError

/-- `{attr[0] for attr in ...}`; there is no test for None -/
def firsts : List V → Except PyErr (List V)
  | [] => .ok []
  | v :: l => match firstOf v with
    | .error e => .error e
    | .ok t => match firsts l with
      | .error e => .error e
      | .ok ts => .ok (t :: ts)

/-- a list of templates with bounds -/
def ranges (x : EObj) (attr : String) : Except PyErr (List V) := match field x attr with
  | .ok (.list l) => firsts l
  | .ok _ => .error .typeError
  | .error e => .error e

/-- one round of the loop of material_spec.py:119-124 -/
def pacTemplates (v : V) : Except PyErr (List V) := match attrField "property" v with
  | .error e => .error e
  | .ok p => match attrField "template" p with
    | .error e => .error e
    | .ok t => match attrField "conditions" v with
      | .ok (.list cs) => match templates (attrField "template") cs with
        | .ok ts => .ok (single t ++ ts)
        | .error e => .error e
      | .ok _ => .error .typeError
      | .error e => .error e

/-- the loop of material_spec.py:119-124 -/
def allPac : List V → Except PyErr (List V)
  | [] => .ok []
  | v :: l => match pacTemplates v with
    | .error e => .error e
    | .ok ts => match allPac l with
      | .error e => .error e
      | .ok us => .ok (ts ++ us)

/-- `self.x`, if it is not None -/
def pointed (x : EObj) (attr : String) : Except PyErr (List V) := match field x attr with
  | .ok v => .ok (single v)
  | .error e => .error e

/-- `cls._local_dependencies(self)`: has_spec.py:50-52, has_template.py:41-43 (the property `template` of an ingredient spec is None: ingredient_spec.py:132-135),
has_process.py:26-28, has_material.py:26-28, has_conditions.py:34-36, has_parameters.py:34-36, has_properties.py:34-36, has_property_templates.py:92-94,
has_condition_templates.py:90-92, has_parameter_templates.py:90-92, material_spec.py:116-125 -/
def localDependencies (x : EObj) : PyC → Except PyErr (List V)
  | .hasSpec => pointed x "_spec"
  | .hasTemplate => if x.cls = .ingredientSpec then .ok [] else pointed x "_template"
  | .hasProcess => pointed x "_process"
  | .hasMaterial => pointed x "_material"
  | .hasConditions => attributes x "_conditions"
  | .hasParameters => attributes x "_parameters"
  | .hasProperties => attributes x "_properties"
  | .hasPropertyTemplates => ranges x "_properties"
  | .hasConditionTemplates => ranges x "_conditions"
  | .hasParameterTemplates => ranges x "_parameters"
  | .entity .materialSpec => match field x "_properties" with
    | .ok (.list l) => allPac l
    | .ok _ => .error .typeError
    | .error e => .error e
  | _ => .error .attributeError

/-- `result |= more` -/
def unite (result more : List V) : List V := more.foldl (fun r v => if v ∈ r then r else r ++ [v]) result

/-- the union of what the methods return -/
def collect (x : EObj) : List V → List PyC → Except PyErr (List V)
  | result, [] => .ok result
  | result, c :: cs => match localDependencies x c with
    | .error e => .error e
    | .ok l => collect x (unite result l) cs

/-- `x.all_dependencies()` (base_entity.py:108-118; attribute_template.py:56-59 for attribute templates). The hierarchy being fixed, the loop ends after at most
40 rounds; `none` if it did not. -/
def allDependencies (x : EObj) : Option (Except PyErr (List V)) :=
  if x.cls ∈ attributeTemplates then some (.ok [])
  else (called 40 [.entity x.cls]).map (collect x [])

end Verif.Dependencies
