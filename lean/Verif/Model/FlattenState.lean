import Verif.Model.DumpsState
/-!
# Model of `flatten`, with the state that an exception leaves behind

`flatten` (util/impl.py:334-388) as in Model/Substitute.lean, except that the memory is kept when an exception is raised. Only `set_uuids` changes entities that exist; stripped copies made
before another one raises, which nothing points to, are left out.
-/

namespace Verif.Substitute
open Verif.Py Verif.Value Verif.Schema Verif.Json Verif.Traverse

/-- `flatten(obj)` once the ids are set (util/impl.py:365-388): the memory afterwards, and what is returned or raised -/
def flattenSetS (env : Env) (n : Nat) (m : Mem) (obj : V) : Option (Mem × Except PyErr (List V)) := match flattenSet env n m obj with
  | none => none
  | some (.error e) => some (m, .error e)
  | some (.ok (l, m')) => some (m', .ok l)

/-- `flatten(obj, scope)` (util/impl.py:334-388): the memory afterwards, and what is returned or raised -/
def flattenS (env : Env) (scope : Option String) (gen : Nat → String) (n : Nat) (m : Mem) (drawn : Nat) (obj : V) : Option (Mem × Except PyErr (List V)) :=
  match scope with
  | none => flattenSetS env n m obj
  | some s => match setUuidsS s gen n m drawn obj with
    | none => none
    | some ((m1, _), some e) => some (m1, .error e)
    | some ((m1, _), none) => flattenSetS env n m1 obj

end Verif.Substitute
