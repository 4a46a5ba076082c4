import Verif.Model.Json
/-!
# Model of `loads`, with the state that an exception leaves behind

`loads` (json/gemd_json.py:57-88) as in Model/Json.lean, except that the memory is kept when an exception is raised. What a constructor has done before it raises, which can only concern
entities made by the same call, is left out.
-/

namespace Verif.Json
open Verif.Py Verif.Value Verif.Schema

section
variable {σ : Type} (hook : List (String × V) → σ → Except PyErr (V × σ))

mutual
/-- `json.loads(text, object_hook=hook)` -/
def decS : V → σ → σ × Except PyErr V
  | .list l, s => match decsS l s with
    | (s', .error e) => (s', .error e)
    | (s', .ok l') => (s', .ok (.list l'))
  | .dict ks vs, s => match strings ks with
    | none => (s, .error .other)
    | some names => match decsS vs s with
      | (s', .error e) => (s', .error e)
      | (s', .ok vs') => match hook (names.zip vs') s' with
        | .error e => (s', .error e)
        | .ok (w, s'') => (s'', .ok w)
  | v, s => (s, .ok v)
/-- each of a list -/
def decsS : List V → σ → σ × Except PyErr (List V)
  | [], s => (s, .ok [])
  | v :: vs, s => match decS v s with
    | (s', .error e) => (s', .error e)
    | (s', .ok w) => match decsS vs s' with
      | (s'', .error e) => (s'', .error e)
      | (s'', .ok ws) => (s'', .ok (w :: ws))
end
end

/-- `loads` (json/gemd_json.py:57-88) of a tree: the memory afterwards, and what is returned or raised -/
def loadsS (env : Env) (m : Mem) (tree : V) : Mem × Except PyErr V :=
  match decS (loadAndIndex env true) tree { mem := m, index := [] } with
  | (st, .error e) => (st.mem, .error e)
  | (st, .ok (.dict ks vs)) => match (strings ks).bind (fun names => Dict.get? (names.zip vs) "object") with
    | some v => (st.mem, .ok v)
    | none => (st.mem, .error .keyError)
  | (st, .ok _) => (st.mem, .error .typeError)

end Verif.Json
