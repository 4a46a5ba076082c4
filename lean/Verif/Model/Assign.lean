import Verif.Model.Inplace
/-!
# Model of assignments to entities: `x.name = value`, `x.uids = ...`, `x.add_uid(...)`, and changes to lists in attributes

The setters are those of Model/Inplace.lean (entity/object/*.py, entity/template/*.py); uids are set by base_entity.py:51-73.
-/

namespace Verif.Assign
open Verif.Py Verif.Value Verif.Schema Verif.Inplace

/-- `x.n = v` for the entity `o`, `n` being a property with a setter, that is, an argument of the constructor. Others are refused: those without setter by Python
with AttributeError; that a new attribute can be made in this way is left out. The memory after an exception: Model/AssignState.lean. The validation level
is not one that raises. -/
def assign (env : Env) (same : Mem → Nat → Nat → Bool) (m : Mem) (o : Nat) (n : String) (v : V) : Except PyErr Mem := match m[o]? with
  | none => .error .other
  | some x => match (eargs x.cls).find? (fun a => decide (a.name = n)) with
    | none => .error .attributeError
    | some a => setAttr env same m o x.cls a.attr v

/-- `getattr(x, n)` for such a property -/
def value (m : Mem) (o : Nat) (n : String) : Option V := match m[o]? with
  | none => none
  | some x => match (eargs x.cls).find? (fun a => decide (a.name = n)) with
    | none => none
    | some a => attrAt m o a.attr

/-- what the setter makes of `v`, or the exception it raises -/
def convertTo (env : Env) (m : Mem) (o : Nat) (n : String) (v : V) : Except PyErr V := match m[o]? with
  | none => .error .other
  | some x => match (eargs x.cls).find? (fun a => decide (a.name = n)) with
    | none => .error .attributeError
    | some a => conv env m a.kind v

/-- `x.uids = v` (base_entity.py:51-59) -/
def assignUids (env : Env) (m : Mem) (o : Nat) (v : V) : Except PyErr Mem := match m[o]? with
  | none => .error .other
  | some x => match convUids env v with
    | .error e => .error e
    | .ok u => .ok (m.set o { x with uids := u })

/-- `x.add_uid(s, i)` (base_entity.py:61-73; case_insensitive_dict.py:60-62 and 179-195: ValueError if there is the scope in other case) -/
def addUid (env : Env) (m : Mem) (o : Nat) (s i : String) : Except PyErr Mem := match m[o]? with
  | none => .error .other
  | some x => if x.uids.any (fun p => decide (env.lower p.1 = env.lower s) && decide (p.1 ≠ s)) then .error .valueError
    else .ok (m.set o { x with uids := Dict.set x.uids s i })

end Verif.Assign
