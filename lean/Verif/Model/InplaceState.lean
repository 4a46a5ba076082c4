import Verif.Model.Inplace
/-!
# What `_substitute_inplace` leaves behind if it raises (util/impl.py:140-207)

The attributes of an entity are replaced one after the other, and those that have been replaced stay so if a later one raises. A list in which something raises is left as it was here; the
code has already changed what comes before in the list. If a setter refuses a value then the code has already unlinked the old one; here it has not.
-/

namespace Verif.Inplace
open Verif.Py Verif.Value Verif.Schema Verif.Json Verif.Substitute

/-- `setFields`, with the memory at the exception -/
def setFieldsS (env : Env) (same : Mem → Nat → Nat → Bool) (repl : Mem → V → Except PyErr (Option V)) (expand : Nat → SubSt → Except PyErr SubSt) (o : Nat) (c : ECls) :
    List (String × V) → SubSt → SubSt × Option PyErr
  | [], st => (st, none)
  | (a, v) :: fs, st => match subI env repl expand v st with
    | .error e => (st, some e)
    | .ok (w, st1) => if w = v then setFieldsS env same repl expand o c fs st1 else match setAttr env same st1.mem o c a w with
      | .error e => (st1, some e)
      | .ok m => setFieldsS env same repl expand o c fs { st1 with mem := m }

/-- `substitute_links(x, scope, allow_fallback=fallback, inplace=True)` of the entity `o`: the memory afterwards, and what is raised -/
def linksInplaceS (env : Env) (same : Mem → Nat → Nat → Bool) (scope : Option String) (fallback : Bool) (m : Mem) (o : Nat) : Mem × Option PyErr := match m[o]? with
  | none => (m, some .other)
  | some x =>
    let r := setFieldsS env same (linkRepl env.lower scope fallback (.ref o)) (fun _ _ => .error .recursionError) o x.cls (shown m x) (remember (.ref o) (.ref o) { visited := [], mem := m })
    (r.1.mem, r.2)

/-! ## Any substitution, with entities nested -/

section
variable (env : Env) (same : Mem → Nat → Nat → Bool) (repl : Mem → V → Except PyErr (Option V)) (expand : Nat → SubSt → SubSt × Option PyErr)

/-- `leaf` (util/impl.py:168-176), with the memory at the exception -/
def leafS (thing : V) (st : SubSt) : SubSt × Except PyErr V := match recall thing st with
  | some w => (st, .ok w)
  | none => match repl st.mem thing with
    | .error e => (st, .error e)
    | .ok r => match r.getD thing with
      | .ref o => match expand o (remember thing (.ref o) st) with
        | (st', some e) => (st', .error e)
        | (st', none) => (st', .ok (.ref o))
      | r => (remember thing r st, .ok r)

mutual
/-- `subI` (util/impl.py:140-207), with the memory at the exception -/
def subIS : V → SubSt → SubSt × Except PyErr V
  | .link s i, st => leafS repl expand (.link s i) st
  | .ref o, st => leafS repl expand (.ref o) st
  | .list l, st => match subIsS l st with
    | (st', .error e) => (st', .error e)
    | (st', .ok l') => (st', .ok (.list l'))
  | .tuple l, st => if (V.tuple l).hash = .raises then (st, .error .typeError)
    else match recall (.tuple l) st with
      | some w => (st, .ok w)
      | none => match subIsS l (remember (.tuple l) (.tuple l) st) with
        | (st', .error e) => (st', .error e)
        | (st', .ok l') => (remember (.tuple l) (.tuple l') st', .ok (.tuple l'))
  | .dict ks vs, st => match subIsS ks st with
    | (st1, .error e) => (st1, .error e)
    | (st1, .ok ks') => match subIsS vs st1 with
      | (st2, .error e) => (st2, .error e)
      | (st2, .ok vs') => (st2, .ok (setDict ks vs ks' vs'))
  | .obj t ns vs, st => match subIsS vs st with
    | (st1, .error e) => (st1, .error e)
    | (st1, .ok vs') => match setObj env st1.mem t ns vs vs' with
      | .error e => (st1, .error e)
      | .ok us => (st1, .ok (.obj t ns us))
  | .none, st => (st, .ok .none)
  | .bool b, st => (st, .ok (.bool b))
  | .int i, st => (st, .ok (.int i))
  | .float q, st => (st, .ok (.float q))
  | .str s, st => (st, .ok (.str s))
/-- each of a list -/
def subIsS : List V → SubSt → SubSt × Except PyErr (List V)
  | [], st => (st, .ok [])
  | v :: vs, st => match subIS v st with
    | (st1, .error e) => (st1, .error e)
    | (st1, .ok w) => match subIsS vs st1 with
      | (st2, .error e) => (st2, .error e)
      | (st2, .ok ws) => (st2, .ok (w :: ws))
end

/-- `setFields` (util/impl.py:201-205), with the memory at the exception, also one within an attribute -/
def setFieldsN (o : Nat) (c : ECls) : List (String × V) → SubSt → SubSt × Option PyErr
  | [], st => (st, none)
  | (a, v) :: fs, st => match subIS env repl expand v st with
    | (st1, .error e) => (st1, some e)
    | (st1, .ok w) => if w = v then setFieldsN o c fs st1 else match setAttr env same st1.mem o c a w with
      | .error e => (st1, some e)
      | .ok m => setFieldsN o c fs { st1 with mem := m }
end

/-- `expandI`, with the memory at the exception -/
def expandIS (env : Env) (same : Mem → Nat → Nat → Bool) (repl : Mem → V → Except PyErr (Option V)) : Nat → Nat → SubSt → SubSt × Option PyErr
  | 0, _, st => (st, some .recursionError)
  | k + 1, o, st => match st.mem[o]? with
    | none => (st, some .other)
    | some x => setFieldsN env same repl (expandIS env same repl k) o x.cls (shown st.mem x) st

/-- `substitute_objects(v, index, inplace=True)` (util/impl.py:304-331): the memory afterwards, and what is returned or raised -/
def objectsInplaceS (env : Env) (same : Mem → Nat → Nat → Bool) (index : Dict (String × String) Nat) (k : Nat) (m : Mem) (v : V) : Mem × Except PyErr V :=
  let r := subIS env (objectRepl index) (expandIS env same (objectRepl index) k) v { visited := [], mem := m }
  (r.1.mem, r.2)

end Verif.Inplace
