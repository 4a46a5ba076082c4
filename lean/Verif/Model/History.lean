import Verif.Model.Substitute
/-!
# Model of complete_material_history

`gemd.entity.util.complete_material_history` (entity/util.py:100-131).
-/

namespace Verif.History
open Verif.Py Verif.Value Verif.Schema Verif.Json Verif.Substitute Verif.Traverse

/-- `json_builtin.loads(text)["context"][0]` (entity/util.py:127). The text is given by the tree that it denotes. -/
def firstRecord : V → Except PyErr V
  | .dict ks vs => match strings ks with
    | none => .error .typeError
    | some names => match Dict.get? (names.zip vs) "context" with
      | some (.list (r :: _)) => .ok r
      | _ => .error .other
  | _ => .error .typeError

/-- `body` (entity/util.py:125-127). The state is the memory and `result`. `gen c k` is the `k`-th id that `uuid4` draws in the `c`-th call of `dumps`.

Simplified: of the memory, only the entities that existed before are kept; the copies that `loads`, `substitute_links` and `dumps` make are not reachable from
anything once `body` has returned. A traversal inside `dumps` that does not end within `k` rounds is reported as an error. -/
def body (env : Env) (gen : Nat → Nat → String) (k : Nat) (s : Mem × List V) (obj : V) : Except PyErr (Mem × List V) :=
  match dumps env "auto" (gen (2 * s.2.length)) k s.1 0 obj with
  | none => .error .other
  | some (.error e) => .error e
  | some (.ok (text, m1)) => match loads env m1 text with
    | .error e => .error e
    | .ok (w, m2) => match substituteLinks env none true m2 w with
      | .error e => .error e
      | .ok (copy, m3) => match dumps env "auto" (gen (2 * s.2.length + 1)) k m3 0 copy with
        | none => .error .other
        | some (.error e) => .error e
        | some (.ok (text2, m4)) => match firstRecord text2 with
          | .error e => .error e
          | .ok r => .ok (m4.take s.1.length, s.2 ++ [r])

/-- `complete_material_history(mat)` (entity/util.py:100-131), in at most `n` rounds of `recursive_foreach`; every traversal in a call of `body` in at most `k`.
The list that is returned, and the memory afterwards. -/
def completeMaterialHistory (env : Env) (gen : Nat → Nat → String) (k n : Nat) (m : Mem) (mat : V) : Option (Except PyErr (List V × Mem)) :=
  match recursiveForeach (foreachGraph (List V) m.length) false (body env gen k) n (m, []) mat with
  | none => none
  | some (.error e) => some (.error e)
  | some (.ok (m', result)) => some (.ok (result, m'))

end Verif.History
