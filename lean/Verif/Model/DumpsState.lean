import Verif.Model.TraverseState
import Verif.Model.Substitute
/-!
# Model of `dumps` and `thin_dumps`, with the state that an exception leaves behind

`dumps` (json/gemd_json.py:32-55) and `thin_dumps` (166-185) as in Model/Substitute.lean, except that the memory is kept when an exception is raised. Only `set_uuids` changes entities that
exist; objects that a step has made before it raises, which nothing points to, are left out.
-/

namespace Verif.Substitute
open Verif.Py Verif.Value Verif.Schema Verif.Json Verif.Traverse

/-- the rest of `dumps` once the ids are set: `flatten` without a scope, then writing -/
def writeAllS (env : Env) (n : Nat) (m : Mem) (obj : V) : Option (Mem × Except PyErr V) := match flattenSet env n m obj with
  | none => none
  | some (.error e) => some (m, .error e)
  | some (.ok (additional, m1)) => match writeContext env m1 obj additional with
    | .error e => some (m1, .error e)
    | .ok (t, m2) => some (m2, .ok t)

/-- `dumps(obj)` (json/gemd_json.py:32-55): the memory afterwards, and what is returned or raised -/
def dumpsS (env : Env) (scope : String) (gen : Nat → String) (n : Nat) (m : Mem) (drawn : Nat) (obj : V) : Option (Mem × Except PyErr V) :=
  match setUuidsS scope gen n m drawn (mkDict [("object", obj)]) with
  | none => none
  | some ((m1, _), some e) => some (m1, .error e)
  | some ((m1, _), none) => writeAllS env n m1 (mkDict [("object", obj)])

/-- the rest of `thin_dumps` once the ids are set -/
def writeThinS (env : Env) (m : Mem) (obj : V) : Mem × Except PyErr V := match substituteLinks env none true m obj with
  | .error e => (m, .error e)
  | .ok (res, m1) => match rawDumps m1 res with
    | .error e => (m1, .error e)
    | .ok t => (m1, .ok t)

/-- `thin_dumps(obj)` (json/gemd_json.py:166-185): the memory afterwards, and what is returned or raised -/
def thinDumpsS (env : Env) (scope : String) (gen : Nat → String) (n : Nat) (m : Mem) (drawn : Nat) (obj : V) : Option (Mem × Except PyErr V) :=
  match setUuidsS scope gen n m drawn obj with
  | none => none
  | some ((m1, _), some e) => some (m1, .error e)
  | some ((m1, _), none) => some (writeThinS env m1 obj)

end Verif.Substitute
