import Verif.Model.Json
/-!
# Model of `substitute_links`, `substitute_objects`, `flatten` and `dumps`

`gemd.util.impl` (util/impl.py:88-137, 246-388, 506-533) and `GEMDJson.dumps`, `thin_dumps` (json/gemd_json.py:32-55, 166-185).

Simplifications. Strings and None are not recorded in `visited`: they are always mapped to themselves. The keys of a dictionary are
substituted before its values, and a key that becomes equal to another stays beside it. Attributes are substituted in the order in
which they were set (the code: in the order of a set). The recursion limit of Python is not modelled; the nesting of entities that are
expanded is bounded by a number, and RecursionError is raised beyond it. `inplace=True` is not modelled here.
-/

namespace Verif.Substitute
open Verif.Py Verif.Value Verif.Schema Verif.Json Verif.Traverse

/-- the state of `_substitute`: the dictionary `visited` and the memory -/
structure SubSt where
  visited : Dict V V
  mem : Mem

/-- `visited[thing] = w`, if it can be hashed -/
def remember (v w : V) (st : SubSt) : SubSt := match v.hash with
  | .key k => { st with visited := Dict.set st.visited k w }
  | _ => st

/-- `visited[thing]`, if `thing in visited` -/
def recall (v : V) (st : SubSt) : Option V := match v.hash with
  | .key k => Dict.get? st.visited k
  | _ => none

section
variable (env : Env) (repl : Mem → V → Except PyErr (Option V)) (expand : Nat → SubSt → Except PyErr (V × SubSt))

/-- the recursion into what `thing` was replaced by, and the last lines (util/impl.py:117-137). A link is built again from its own scope
and id. -/
def through (thing r : V) (st : SubSt) : Except PyErr (V × SubSt) := match r with
  | .ref o => match expand o st with
    | .error e => .error e
    | .ok (w, st') => .ok (w, remember thing w st')
  | r => .ok (r, remember thing r st)

/-- `_substitute` of an entity or link (util/impl.py:110-137); `repl` is `sub` where `applies` -/
def subLeaf (thing : V) (st : SubSt) : Except PyErr (V × SubSt) := match recall thing st with
  | some w => .ok (w, st)
  | none => match repl st.mem thing with
    | .error e => .error e
    | .ok none => through expand thing thing st
    | .ok (some r) => through expand thing r (remember thing r st)

/-- `_substitute` of a number (util/impl.py:110-111, 131-135) -/
def subNumber (thing : V) (st : SubSt) : Except PyErr (V × SubSt) := match recall thing st with
  | some w => .ok (w, st)
  | none => .ok (thing, remember thing thing st)

mutual
/-- `_substitute(thing, sub, applies, visited)` (util/impl.py:88-137); `expand` is the case of an entity that is not replaced -/
def sub : V → SubSt → Except PyErr (V × SubSt)
  | .none, st => .ok (.none, st)
  | .str s, st => .ok (.str s, st)
  | .bool b, st => subNumber (.bool b) st
  | .int i, st => subNumber (.int i) st
  | .float q, st => subNumber (.float q) st
  | .link s i, st => subLeaf repl expand (.link s i) st
  | .ref o, st => subLeaf repl expand (.ref o) st
  | .list l, st => match subList l st with
    | .error e => .error e
    | .ok (l', st') => .ok (.list l', st')
  | .tuple l, st => if (V.tuple l).hash = .raises then .error .typeError
    else match recall (.tuple l) st with
      | some w => .ok (w, st)
      | none => match subList l st with
        | .error e => .error e
        | .ok (l', st') => .ok (.tuple l', remember (.tuple l) (.tuple l') st')
  | .dict ks vs, st => match subList ks st with
    | .error e => .error e
    | .ok (ks', st1) => match subList vs st1 with
      | .error e => .error e
      | .ok (vs', st2) => .ok (.dict ks' vs', st2)
  | .obj t ns vs, st => match subList vs st with
    | .error e => .error e
    | .ok (vs', st1) => match build env st1.mem (mkDict (("type", .str t) :: ns.zip vs')) with
      | .error e => .error e
      | .ok (w, m) => .ok (w, { st1 with mem := m })
/-- `[_substitute(x, ...) for x in l]` -/
def subList : List V → SubSt → Except PyErr (List V × SubSt)
  | [], st => .ok ([], st)
  | v :: vs, st => match sub v st with
    | .error e => .error e
    | .ok (w, st1) => match subList vs st1 with
      | .error e => .error e
      | .ok (ws, st2) => .ok (w :: ws, st2)
end
end

/-- an entity that is not replaced is built again from its substituted `as_dict()` (util/impl.py:126-129) -/
def expandE (env : Env) (repl : Mem → V → Except PyErr (Option V)) : Nat → Nat → SubSt → Except PyErr (V × SubSt)
  | 0, _, _ => .error .recursionError
  | k + 1, o, st => match st.mem[o]? with
    | none => .error .other
    | some x =>
      match subList env repl (expandE env repl k) ((asDict st.mem x).map Prod.snd) st with
      | .error e => .error e
      | .ok (vs, st1) => match build env st1.mem (mkDict (((asDict st.mem x).map Prod.fst).zip vs)) with
        | .error e => .error e
        | .ok (w, m) => .ok (w, { st1 with mem := m })

/-- `_substitute(thing, sub, applies)`, at most `k` entities nested -/
def substitute (env : Env) (repl : Mem → V → Except PyErr (Option V)) (k : Nat) (m : Mem) (thing : V) : Except PyErr (V × Mem) :=
  match sub env repl (expandE env repl k) thing { visited := [], mem := m } with
  | .error e => .error e
  | .ok (w, st) => .ok (w, st.mem)

/-- the scope that `to_link` looks up (base_entity.py:97-98) -/
def linkScope (lower : String → String) (x : EObj) (first : String) (fallback : Bool) : Option String → String
  | none => first
  | some s => if fallback && !x.uids.any (fun p => decide (lower p.1 = lower s)) then first else s

/-- `x.to_link(scope, allow_fallback=fallback)` (base_entity.py:75-106) -/
def toLink (lower : String → String) (scope : Option String) (fallback : Bool) (x : EObj) : Except PyErr V := match x.uids with
  | [] => .error .valueError
  | (first, _) :: _ =>
    match x.uids.find? (fun p => decide (lower p.1 = lower (linkScope lower x first fallback scope))) with
    | some p => .ok (.link (linkScope lower x first fallback scope) p.2)
    | none => .error .valueError

/-- `sub` and `applies` of `substitute_links(top, scope, allow_fallback=fallback)` (util/impl.py:299-301) -/
def linkRepl (lower : String → String) (scope : Option String) (fallback : Bool) (top : V) (m : Mem) : V → Except PyErr (Option V)
  | .ref o => if .ref o = top then .ok none
    else match m[o]? with
      | none => .error .other
      | some x => match toLink lower scope fallback x with
        | .error e => .error e
        | .ok l => .ok (some l)
  | _ => .ok none

/-- `substitute_links(v, scope, allow_fallback=fallback)` (util/impl.py:270-301): nothing but `v` itself is expanded, once. If `v` is an
entity that contains itself the code does not return; here RecursionError. -/
def substituteLinks (env : Env) (scope : Option String) (fallback : Bool) (m : Mem) (v : V) : Except PyErr (V × Mem) :=
  substitute env (linkRepl env.lower scope fallback v) 1 m v

/-! ## flatten -/

/-- `writable_sort_order` (util/impl.py:506-533) -/
def sortOrder : ECls → Nat
  | .conditionTemplate => 0
  | .parameterTemplate => 0
  | .propertyTemplate => 0
  | .materialTemplate => 1
  | .processTemplate => 1
  | .measurementTemplate => 1
  | .processSpec => 2
  | .measurementSpec => 2
  | .processRun => 3
  | .materialSpec => 3
  | .ingredientSpec => 4
  | .materialRun => 4
  | .ingredientRun => 5
  | .measurementRun => 5

/-- the key of an entity in the memory -/
def orderOf (m : Mem) : V → Nat
  | .ref o => match m[o]? with
    | some x => sortOrder x.cls
    | none => 0
  | _ => 0

/-- insertion before the first element with an equal or greater key -/
def insertBy (key : V → Nat) (v : V) : List V → List V
  | [] => [v]
  | w :: ws => if key v ≤ key w then v :: w :: ws else w :: insertBy key v ws

/-- `sorted(l, key=key)`: stable -/
def sortBy (key : V → Nat) (l : List V) : List V := l.foldr (insertBy key) []

/-- The callback of `flatten` (util/impl.py:367-385). The state is the memory and the set of known uids. -/
def keepNew (s : Mem × List (String × String)) : V → Except PyErr ((Mem × List (String × String)) × List V)
  | .ref o => match s.1[o]? with
    | none => .error .other
    | some x =>
      if x.uids.length = 0 then .error .valueError
      else .ok ((s.1, s.2 ++ x.uids), if x.uids.any (fun u => decide (u ∈ s.2)) then [] else [.ref o])
  | _ => .error .other

/-- `[substitute_links(x) for x in res]` -/
def stripAll (env : Env) : List V → Mem → Except PyErr (List V × Mem)
  | [], m => .ok ([], m)
  | v :: vs, m => match substituteLinks env none true m v with
    | .error e => .error e
    | .ok (w, m1) => match stripAll env vs m1 with
      | .error e => .error e
      | .ok (ws, m2) => .ok (w :: ws, m2)

/-- the entities `flatten` keeps (util/impl.py:365-387), in at most `n` rounds -/
def distinct (n : Nat) (m : Mem) (obj : V) : Option (Except PyErr ((Mem × List (String × String)) × List V)) :=
  recursiveFlatmap (flatmapGraph (List (String × String)) false m.length) keepNew n (m, []) obj

/-- `flatten(obj)` once the ids are set (util/impl.py:365-388) -/
def flattenSet (env : Env) (n : Nat) (m : Mem) (obj : V) : Option (Except PyErr (List V × Mem)) :=
  match distinct n m obj with
  | none => none
  | some (.error e) => some (.error e)
  | some (.ok (_, res)) => match stripAll env res m with
    | .error e => some (.error e)
    | .ok (ws, m') => some (.ok (sortBy (orderOf m') ws, m'))

/-- `flatten(obj, scope)` (util/impl.py:334-388). The ids drawn are `gen drawn, gen (drawn + 1), ...`. -/
def flatten (env : Env) (scope : Option String) (gen : Nat → String) (n : Nat) (m : Mem) (drawn : Nat) (obj : V) :
    Option (Except PyErr (List V × Mem)) :=
  match scope with
  | none => flattenSet env n m obj
  | some s => match setUuids s gen n m drawn obj with
    | none => none
    | some (.error e) => some (.error e)
    | some (.ok (m1, _)) => flattenSet env n m1 obj

/-! ## dumps -/

/-- `res = substitute_links(res); res["context"] = additional` and the encoder (json/gemd_json.py:53-55) -/
def writeContext (env : Env) (m : Mem) (res : V) (additional : List V) : Except PyErr (V × Mem) :=
  match substituteLinks env none true m res with
  | .error e => .error e
  | .ok (.dict ks vs, m1) => match rawDumps m1 (.dict (ks ++ [.str "context"]) (vs ++ [.list additional])) with
    | .error e => .error e
    | .ok t => .ok (t, m1)
  | .ok _ => .error .other

/-- `dumps(obj)` (json/gemd_json.py:32-55) of an encoder with scope `scope`: the tree that is written, and the memory afterwards -/
def dumps (env : Env) (scope : String) (gen : Nat → String) (n : Nat) (m : Mem) (drawn : Nat) (obj : V) : Option (Except PyErr (V × Mem)) :=
  match flatten env (some scope) gen n m drawn (mkDict [("object", obj)]) with
  | none => none
  | some (.error e) => some (.error e)
  | some (.ok (additional, m1)) => some (writeContext env m1 (mkDict [("object", obj)]) additional)

/-- `thin_dumps(obj)` (json/gemd_json.py:166-185) of an encoder with scope `scope`: the tree that is written, and the memory afterwards -/
def thinDumps (env : Env) (scope : String) (gen : Nat → String) (n : Nat) (m : Mem) (drawn : Nat) (obj : V) : Option (Except PyErr (V × Mem)) :=
  match setUuids scope gen n m drawn obj with
  | none => none
  | some (.error e) => some (.error e)
  | some (.ok (m1, _)) => match substituteLinks env none true m1 obj with
    | .error e => some (.error e)
    | .ok (res, m2) => match rawDumps m2 res with
      | .error e => some (.error e)
      | .ok t => some (.ok (t, m2))

/-! ## substitute_objects -/

/-- `make_index` (util/impl.py:246-267): the callback -/
def indexEntries (s : Mem × Unit) : V → Except PyErr ((Mem × Unit) × List ((String × String) × Nat))
  | .ref o => match s.1[o]? with
    | none => .error .other
    | some x => .ok (s, x.uids.map (fun u => (u, o)))
  | _ => .error .other

/-- `idx[uid] = target` for each -/
def fillIndex : List ((String × String) × Nat) → Dict (String × String) Nat → Dict (String × String) Nat
  | [], idx => idx
  | (u, o) :: rest, idx => fillIndex rest (Dict.set idx u o)

/-- `make_index(obj)` (util/impl.py:246-267), in at most `n` rounds -/
def makeIndex (n : Nat) (m : Mem) (obj : V) : Option (Except PyErr (Dict (String × String) Nat)) :=
  match recursiveFlatmap (flatmapGraph Unit true m.length) indexEntries n (m, ()) obj with
  | none => none
  | some (.error e) => some (.error e)
  | some (.ok (_, l)) => some (.ok (fillIndex l []))

/-- `sub` and `applies` of `substitute_objects(obj, index)` (util/impl.py:329-331) -/
def objectRepl (index : Dict (String × String) Nat) (_ : Mem) : V → Except PyErr (Option V)
  | .link s i => match Dict.get? index (s, i) with
    | some o => .ok (some (.ref o))
    | none => .ok (some (.link s i))
  | _ => .ok none

/-- `substitute_objects(v, index)` (util/impl.py:304-331), at most `k` entities nested -/
def substituteObjects (env : Env) (index : Dict (String × String) Nat) (k : Nat) (m : Mem) (v : V) : Except PyErr (V × Mem) :=
  substitute env (objectRepl index) k m v

end Verif.Substitute
