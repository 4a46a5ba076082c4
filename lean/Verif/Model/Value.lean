import Verif.Model.Traverse
/-!
# Python values and the memory of entities

The values that occur in the fields of entities and as arguments of the functions in `gemd.util.impl` and `gemd.json`.
Entities (subclasses of BaseEntity) have identity and live in a memory; everything else is a value:
`None`, booleans, numbers, strings, lists, tuples, dictionaries, `LinkByUID`s, and the other DictSerializable objects (attributes,
values, bounds, sources, file links) with their class name and fields.

Simplifications. Lists and dictionaries are values: a list that contains itself cannot be written (`C36_cycle_counterexample` is about
those). The non-entity objects have identity in Python and are hashed by it; here two of them are never identified by a traversal, so
a shared one is walked through twice. Floats are rational numbers (no nan, no infinities). Bytes, sets, generators and user-defined
containers are left out.
-/

namespace Verif.Value
open Verif.Py Verif.Traverse

/-- A Python value. `dict ks vs`: the keys and the values, in order. `obj typ names vals`: a DictSerializable that is neither an entity
nor a link. `ref o`: the entity with number `o`. -/
inductive V where
  | none
  | bool (b : Bool)
  | int (i : Int)
  | float (q : Rat)
  | str (s : String)
  | link (scope id : String)
  | list (l : List V)
  | tuple (l : List V)
  | dict (ks vs : List V)
  | obj (typ : String) (names : List String) (vals : List V)
  | ref (o : Nat)

mutual
/-- structural equality -/
def V.beq : V → V → Bool
  | .none, .none => true
  | .bool a, .bool b => a == b
  | .int a, .int b => a == b
  | .float a, .float b => a == b
  | .str a, .str b => a == b
  | .link a b, .link c d => a == c && b == d
  | .list a, .list b => beqs a b
  | .tuple a, .tuple b => beqs a b
  | .dict a b, .dict c d => beqs a c && beqs b d
  | .obj t n a, .obj t' n' b => t == t' && n == n' && beqs a b
  | .ref a, .ref b => a == b
  | _, _ => false
def beqs : List V → List V → Bool
  | [], [] => true
  | a :: as, b :: bs => a.beq b && beqs as bs
  | _, _ => false
end

mutual
theorem V.beq_iff (a b : V) : a.beq b = true ↔ a = b := by
  cases a <;> cases b <;> simp [V.beq, beqs_iff, and_assoc]
theorem beqs_iff (a b : List V) : beqs a b = true ↔ a = b := by
  cases a <;> cases b <;> simp [beqs, V.beq_iff, beqs_iff]
end

instance : DecidableEq V := fun a b => decidable_of_iff _ (V.beq_iff a b)

mutual
/-- number of nodes -/
def V.size : V → Nat
  | .list l => 1 + sizes l
  | .tuple l => 1 + sizes l
  | .dict ks vs => 1 + sizes ks + sizes vs
  | .obj _ _ vs => 1 + sizes vs
  | _ => 1
def sizes : List V → Nat
  | [] => 0
  | v :: vs => v.size + sizes vs
end

mutual
/-- all values in a value, itself included; not looking into entities -/
def V.subs : V → List V
  | .list l => .list l :: subss l
  | .tuple l => .tuple l :: subss l
  | .dict ks vs => .dict ks vs :: (subss ks ++ subss vs)
  | .obj t ns vs => .obj t ns vs :: subss vs
  | .link s i => [.link s i, .str s, .str i]
  | v => [v]
def subss : List V → List V
  | [] => []
  | v :: vs => v.subs ++ subss vs
end

mutual
/-- Equality and hash as keys: numbers are equal across their types (`1 == True == 1.0`), a link equals and hashes like the pair of
its scope and id (link_by_uid.py:75-76, 80-81). -/
def V.norm : V → V
  | .bool b => .float (if b then 1 else 0)
  | .int i => .float i
  | .link s i => .tuple [.str s, .str i]
  | .tuple l => .tuple (norms l)
  | v => v
def norms : List V → List V
  | [] => []
  | v :: vs => v.norm :: norms vs
end

/-- hashing one member of a tuple, which itself hashes to `h` -/
def memberHash (v : V) (h : Hash V) : Hash V := match v with
  | .list _ => .raises
  | .dict _ _ => .raises
  | _ => h

mutual
/-- Hashing: lists and dictionaries have no hash; a tuple raises if a member has none. Non-entity objects hash by identity: see the
simplification above. -/
def V.hash : V → Hash V
  | .list _ => .unhashable
  | .dict _ _ => .unhashable
  | .obj _ _ _ => .unhashable
  | .tuple l => match hashes l with
    | .key _ => .key (.tuple (norms l))
    | .unhashable => .unhashable
    | .raises => .raises
  | v => .key v.norm
/-- hashing the members of a tuple -/
def hashes : List V → Hash V
  | [] => .key .none
  | v :: vs => match memberHash v v.hash with
    | .key _ => hashes vs
    | .unhashable => match hashes vs with
      | .raises => .raises
      | _ => .unhashable
    | .raises => .raises
end

/-- The classes of entities (gemd.entity.template, gemd.entity.object). -/
inductive ECls where
  | propertyTemplate | conditionTemplate | parameterTemplate
  | materialTemplate | processTemplate | measurementTemplate
  | materialSpec | processSpec | ingredientSpec | measurementSpec
  | materialRun | processRun | ingredientRun | measurementRun
  deriving DecidableEq

/-- An entity: its class, its uids (`_uids`, strings to strings) and its other fields (`__dict__`, in order). -/
structure EObj where
  cls : ECls
  uids : List (String × String)
  fields : List (String × V)
  deriving DecidableEq

/-- The memory: entity `o` is the `o`-th of the list. -/
abbrev Mem := List EObj

/-- `skip` (material_run.py:17, process_run.py:23, process_spec.py:21): the back references -/
def skip : ECls → List String
  | .materialRun => ["_measurements"]
  | .processRun => ["_output_material", "_ingredients"]
  | .processSpec => ["_output_material", "_ingredients"]
  | _ => []

/-- What `recursive_foreach` pushes (util/impl.py:430-439). The dictionary `_uids`, which contains only strings, is left out. -/
def kidsForeach (m : Mem) : V → List V
  | .list l => l
  | .tuple l => l
  | .dict ks vs => ks ++ vs
  | .obj _ ns vs => (ns.zip vs).map Prod.snd
  | .link s i => [.str s, .str i]
  | .ref o => match m[o]? with
    | some x => x.fields.map Prod.snd
    | none => []
  | _ => []

/-- insertion sort by field name: `sorted(this.__dict__.items())` (names are distinct, so values are not compared) -/
def insertField (f : String × V) : List (String × V) → List (String × V)
  | [] => [f]
  | g :: gs => if f.1 ≤ g.1 then f :: g :: gs else g :: insertField f gs
def sortFields : List (String × V) → List (String × V)
  | [] => []
  | f :: fs => insertField f (sortFields fs)

/-- What `recursive_flatmap` pushes (util/impl.py:489-501). `_uids` is left out as above. Strings are `Reversible`, so that the code also pushes the characters
of a string, which are strings of length one; a string of length one pushes itself and is then found in `seen`. They are left out: strings lead to nothing but
strings, and the function is not applied to them. -/
def kidsFlatmap (unidirectional : Bool) (m : Mem) : V → List V
  | .list l => l.reverse
  | .tuple l => l.reverse
  | .dict ks vs => ks ++ vs
  | .obj _ ns vs => ((sortFields (ns.zip vs)).map Prod.snd)
  | .link s i => [.str i, .str s]
  | .ref o => match m[o]? with
    | some x => ((sortFields x.fields).filter (fun f => !(unidirectional && decide (f.1 ∈ skip x.cls)))).map Prod.snd
    | none => []
  | _ => []

/-- `isinstance(v, BaseEntity)`; `n` is the number of entities in the memory -/
def isEntity (n : Nat) : V → Bool
  | .ref o => decide (o < n)
  | _ => false

/-- The graph walked by `recursive_foreach` in a memory with `n` entities. The state is the memory and whatever the callback keeps. -/
def foreachGraph (τ : Type) (n : Nat) : Graph (Mem × τ) V V :=
  { hash := V.hash, kids := fun s => kidsForeach s.1, entity := isEntity n }

/-- the graph walked by `recursive_flatmap` -/
def flatmapGraph (τ : Type) (unidirectional : Bool) (n : Nat) : Graph (Mem × τ) V V :=
  { hash := V.hash, kids := fun s => kidsFlatmap unidirectional s.1, entity := isEntity n }

/-- The callback of `set_uuids` (util/impl.py:29-32), `base_obj.add_uid` being base_entity.py:61-73. The ids that `uuid.uuid4` will
draw are `gen 0, gen 1, ...`; the state counts how many were drawn. -/
def assignUid (scope : String) (gen : Nat → String) (s : Mem × Nat) : V → Except PyErr (Mem × Nat)
  | .ref o => match s.1[o]? with
    | some x => if x.uids.length = 0 then .ok (s.1.set o { x with uids := [(scope, gen s.2)] }, s.2 + 1) else .ok s
    | none => .error .other
  | _ => .error .other

/-- `set_uuids(obj, scope)` (util/impl.py:12-35), in at most `n` rounds -/
def setUuids (scope : String) (gen : Nat → String) (n : Nat) (m : Mem) (drawn : Nat) (obj : V) : Option (Except PyErr (Mem × Nat)) :=
  recursiveForeach (foreachGraph Nat m.length) false (assignUid scope gen) n (m, drawn) obj

end Verif.Value
