import Verif.Model.Schema
/-!
# Model of `gemd.json` and of `DictSerializable.dump`, `build`, `from_dict`

A JSON text is modelled by its tree: a value of type `V` made of None, booleans, numbers, strings, lists and dictionaries with strings
as keys. The text itself (`json.dumps` and `json.loads` of such a tree, which are inverse to each other) is in `Verif.Model.JsonText`.
`sort_keys=True` is: dictionaries are written with their keys in order, and read in that order.
-/

namespace Verif.Json
open Verif.Py Verif.Value Verif.Schema

/-- a dictionary with strings as keys -/
def mkDict (fs : List (String × V)) : V := .dict (fs.map (fun f => .str f.1)) (fs.map Prod.snd)

/-! ## Writing -/

section
variable (E : Nat → Except PyErr V)

mutual
/-- `JSONEncoder(sort_keys=True)` with `GEMDEncoder.default` (json/gemd_encoder.py:12-19): tuples are written as lists, objects as their
`as_dict()`; keys have to be strings (numbers, booleans and None as keys, which JSON turns into strings, are left out). `E` writes
entities. Of several things that cannot be written, which exception is raised depends on the order; here it is the first. -/
def enc : V → Except PyErr V
  | .list l => match encs l with
    | .error e => .error e
    | .ok l' => .ok (.list l')
  | .tuple l => match encs l with
    | .error e => .error e
    | .ok l' => .ok (.list l')
  | .dict ks vs => match strings ks with
    | none => .error .typeError
    | some names => match encs vs with
      | .error e => .error e
      | .ok vs' => .ok (mkDict (sortFields (names.zip vs')))
  | .obj t ns vs => match encs vs with
    | .error e => .error e
    | .ok vs' => .ok (mkDict (sortFields (("type", .str t) :: ns.zip vs')))
  | .link s i => .ok (mkDict [("id", .str i), ("scope", .str s), ("type", .str "link_by_uid")])
  | .ref o => E o
  | .none => .ok .none
  | .bool b => .ok (.bool b)
  | .int i => .ok (.int i)
  | .float q => .ok (.float q)
  | .str s => .ok (.str s)
def encs : List V → Except PyErr (List V)
  | [] => .ok []
  | v :: vs => match enc v with
    | .error e => .error e
    | .ok w => match encs vs with
      | .error e => .error e
      | .ok ws => .ok (w :: ws)
end
end

/-- Writing an entity that is nested in at most `k - 1` others. If there is no entity that contains itself then the nesting is less
deep than there are entities; if there is one then `json.dumps` notices and raises ValueError. -/
def encRef (m : Mem) : Nat → Nat → Except PyErr V
  | 0, _ => .error .valueError
  | k + 1, o => match m[o]? with
    | none => .error .other
    | some x => match encs (encRef m k) ((asDict m x).map Prod.snd) with
      | .error e => .error e
      | .ok vs => .ok (mkDict (sortFields (((asDict m x).map Prod.fst).zip vs)))

/-- the tree that `raw_dumps` writes (json/gemd_json.py:147-164) -/
def rawDumps (m : Mem) (v : V) : Except PyErr V := enc (encRef m (m.length + 1)) v

/-! ## Reading -/

section
variable {σ : Type} (hook : List (String × V) → σ → Except PyErr (V × σ))

mutual
/-- `json.loads(text, object_hook=hook)`: the hook is called on each dictionary as soon as it is complete -/
def dec : V → σ → Except PyErr (V × σ)
  | .list l, s => match decs l s with
    | .error e => .error e
    | .ok (l', s') => .ok (.list l', s')
  | .dict ks vs, s => match strings ks with
    | none => .error .other
    | some names => match decs vs s with
      | .error e => .error e
      | .ok (vs', s') => hook (names.zip vs') s'
  | v, s => .ok (v, s)
def decs : List V → σ → Except PyErr (List V × σ)
  | [], s => .ok ([], s)
  | v :: vs, s => match dec v s with
    | .error e => .error e
    | .ok (w, s') => match decs vs s' with
      | .error e => .error e
      | .ok (ws, s'') => .ok (w :: ws, s'')
end
end

/-- while loading: the memory and the index of the entities loaded so far -/
structure Loading where
  mem : Mem
  index : Dict (String × String) Nat

/-- the class with a `typ`, if it is an entity class -/
def eclsOf (t : String) : Option ECls :=
  [ECls.propertyTemplate, .conditionTemplate, .parameterTemplate, .materialTemplate, .processTemplate, .measurementTemplate,
   .materialSpec, .processSpec, .ingredientSpec, .measurementSpec, .materialRun, .processRun, .ingredientRun, .measurementRun].find?
    (fun c => decide (Equal.typ c = t))

/-- `object_index[(scope.lower(), uid)] = obj` for each uid (json/gemd_json.py:250-252) -/
def addIndex (env : Env) (o : Nat) : List (String × String) → Dict (String × String) Nat → Dict (String × String) Nat
  | [], idx => idx
  | (s, i) :: rest, idx => addIndex env o rest (Dict.set idx (env.lower s, i) o)

/-- a link, replaced by the object with its id if there is one (json/gemd_json.py:254-256) -/
def loadLink (env : Env) (substitute : Bool) (scope id : String) (st : Loading) : V :=
  if substitute then match Dict.get? st.index (env.lower scope, id) with
    | some o => .ref o
    | none => .link scope id
  else .link scope id

/-- `_load_and_index` once the type is known and removed (json/gemd_json.py:247-258). Links whose scope or id is not a string are left
out. -/
def loadAs (env : Env) (substitute : Bool) (t : String) (d : List (String × V)) (st : Loading) : Except PyErr (V × Loading) :=
  if t = "link_by_uid" then
    match Dict.get? d "scope", Dict.get? d "id" with
    | some (.str s), some (.str i) => .ok (loadLink env substitute s i st, st)
    | some _, some _ => .error .other
    | _, _ => .error .typeError
  else match Dict.get? table t with
    | some c => match construct env st.mem t c d with
      | .error e => .error e
      | .ok v => .ok (v, st)
    | none => match eclsOf t with
      | none => .error .typeError
      | some c => match fromDictE env st.mem c d with
        | .error e => .error e
        | .ok (o, m) => .ok (.ref o, { mem := m, index := addIndex env o ((m[o]?.map EObj.uids).getD []) st.index })

/-- `_load_and_index` (json/gemd_json.py:214-258). `_init_sig` (dict_serializable.py:91) counts `self` among the arguments of a
constructor, so a field of that name is handed to it, which is a TypeError. -/
def loadAndIndex (env : Env) (substitute : Bool) (d : List (String × V)) (st : Loading) : Except PyErr (V × Loading) :=
  match Dict.get? d "type" with
  | none => .ok (mkDict d, st)
  | some (.str t) => if Dict.get? d "self" ≠ none then .error .typeError else loadAs env substitute t (Dict.erase d "type") st
  | some _ => .error .typeError

/-- `raw_loads` (json/gemd_json.py:187-212) of a tree -/
def rawLoads (env : Env) (m : Mem) (tree : V) : Except PyErr (V × Mem) :=
  match dec (loadAndIndex env false) tree { mem := m, index := [] } with
  | .error e => .error e
  | .ok (v, st) => .ok (v, st.mem)

/-- `loads` (json/gemd_json.py:57-88) of a tree -/
def loads (env : Env) (m : Mem) (tree : V) : Except PyErr (V × Mem) :=
  match dec (loadAndIndex env true) tree { mem := m, index := [] } with
  | .error e => .error e
  | .ok (.dict ks vs, st) => match (strings ks).bind (fun names => Dict.get? (names.zip vs) "object") with
    | some v => .ok (v, st.mem)
    | none => .error .keyError
  | .ok (_, _) => .error .typeError

/-- `DictSerializable.build(d)` (dict_serializable.py:128-149) -/
def build (env : Env) (m : Mem) (d : V) : Except PyErr (V × Mem) :=
  match rawDumps m d with
  | .error e => .error e
  | .ok tree => rawLoads env m tree

/-- `x.dump()` (dict_serializable.py:110-126): the tree, as dictionaries -/
def dump (m : Mem) (v : V) : Except PyErr V := rawDumps m v

/-- `x.as_dict()` of any DictSerializable -/
def asDictV (m : Mem) : V → V
  | .obj t ns vs => mkDict (("type", .str t) :: ns.zip vs)
  | .link s i => mkDict [("scope", .str s), ("id", .str i), ("type", .str "link_by_uid")]
  | .ref o => match m[o]? with
    | some x => mkDict (asDict m x)
    | none => .none
  | v => v

end Verif.Json
