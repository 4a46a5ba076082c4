import Verif.Model.Substitute
/-!
# Model of `substitute_links` and `substitute_objects` with `inplace=True`

`_substitute_inplace` and `_setter_by_attribute` (util/impl.py:140-243), and the setters they call: entity/object/ingredient_run.py:109-155,
ingredient_spec.py:102-130, material_run.py:75-87, material_spec.py:87-109, measurement_run.py:92-103, has_spec.py:26-35, has_template.py:30-39.

Entities are changed in the memory. Lists, dictionaries and the other objects are values here, so what they are changed to is returned.

Simplifications. No list, dictionary or attribute object belongs to two owners. The code reads a list or an object again while it goes through it, here
it is read when the entity is begun with; that makes a difference only for an entity that is nested in itself. The keys of a dictionary are substituted before
its values. The code assigns to each position of a list, also if nothing changes there, and a `ValidList` checks each assignment; here a list is checked as a
whole, and only if something in it has changed. The validation level is not one that raises (C21 to C24): the checks against templates never reject anything here. The memory at an
exception: Model/InplaceState.lean. The nesting of entities is bounded by a number, RecursionError is raised beyond it. The entries `type` and `uids` of `as_dict()`,
in which there are only strings, are left out.
-/

namespace Verif.Inplace
open Verif.Py Verif.Value Verif.Schema Verif.Json Verif.Substitute

/-! ## The setters -/

/-- `l.remove(x)`, for `p` what is equal to `x`; ValueError if there is none -/
def removeFirst (p : V → Bool) : List V → Except PyErr (List V)
  | [] => .error .valueError
  | v :: vs => if p v then .ok vs else match removeFirst p vs with
    | .error e => .error e
    | .ok ws => .ok (v :: ws)

/-- is it the entity `o`, or equal to it? `same` is `==` between entities (base_entity.py:120-218). -/
def isSame (same : Mem → Nat → Nat → Bool) (m : Mem) (o : Nat) : V → Bool
  | .ref q => decide (q = o) || same m q o
  | _ => false

/-- the attribute `a` of the entity `o` -/
def attrAt (m : Mem) (o : Nat) (a : String) : Option V := match m[o]? with
  | some x => Dict.get? x.fields a
  | none => none

/-- What a two-way link to an entity, which is to be replaced, is forgotten by (ingredient_run.py:126-128, ingredient_spec.py:119-121, material_run.py:77-78,
material_spec.py:96-97, measurement_run.py:94-96) -/
def unlink (same : Mem → Nat → Nat → Bool) (m : Mem) (o : Nat) (c : ECls) (a : String) : Except PyErr Mem := match backRef c with
  | none => .ok m
  | some (there, back) => if there = a then match attrAt m o a with
      | some (.ref p) => if back = "_output_material" then .ok (setField m p back (fun _ => .none)) else match attrAt m p back with
        | some (.list l) => match removeFirst (isSame same m o) l with
          | .error e => .error e
          | .ok l' => .ok (setField m p back (fun _ => .list l'))
        | _ => .error .other
      | _ => .ok m
    else .ok m

/-- the name and the labels of an ingredient run are kept before its spec is replaced (ingredient_run.py:149-151) -/
def keepNames (m : Mem) (o : Nat) (c : ECls) (a : String) : Mem :=
  if c = .ingredientRun ∧ a = "_spec" then match attrAt m o a with
    | some (.ref p) => match attrAt m p "_name", attrAt m p "_labels" with
      | some n, some ls => setField (setField m o "_name" (fun _ => n)) o "_labels" (fun _ => ls)
      | _, _ => m
    | _ => m
  else m

/-- the new end of a two-way link is told (ingredient_run.py:132-133, ingredient_spec.py:126-127, material_run.py:84, material_spec.py:105,
measurement_run.py:100-101) -/
def tell (m : Mem) (o : Nat) (c : ECls) (a : String) (v : V) : Mem := match backRef c with
  | none => m
  | some (there, back) => if there = a then match v with
      | .ref p => setField m p back (if back = "_output_material" then fun _ => .ref o else appendTo (.ref o))
      | _ => m
    else m

/-- what the setter of an attribute does with its argument; the read-only ones are set as they are (util/impl.py:231-243) -/
def kindOf (c : ECls) (a : String) : Kind := match (eargs c).find? (fun b => decide (b.attr = a)) with
  | some b => b.kind
  | none => .raw

/-- `_setter_by_attribute(type(x), a)(x, v)` (util/impl.py:210-243) for the entity `o` of class `c`. (If `v` is refused then the code has already unlinked the old
value.) -/
def setAttr (env : Env) (same : Mem → Nat → Nat → Bool) (m : Mem) (o : Nat) (c : ECls) (a : String) (v : V) : Except PyErr Mem :=
  match conv env m (kindOf c a) v with
  | .error e => .error e
  | .ok w => match unlink same m o c a with
    | .error e => .error e
    | .ok m1 => .ok (tell (setField (keepNames m1 o c a) o a (fun _ => w)) o c a w)

/-- the same for the attribute `n` of an object of class `t` -/
def objKind (t n : String) : Kind := match Dict.get? table t with
  | some c => match c.args.find? (fun b => decide (b.name = n)) with
    | some b => b.kind
    | none => .raw
  | none => .raw

/-- the attributes of an object are set, where they have changed (util/impl.py:201-205) -/
def setObj (env : Env) (m : Mem) (t : String) : List String → List V → List V → Except PyErr (List V)
  | n :: ns, v :: vs, w :: ws => match (if w = v then Except.ok v else conv env m (objKind t n) w) with
    | .error e => .error e
    | .ok u => match setObj env m t ns vs ws with
      | .error e => .error e
      | .ok us => .ok (u :: us)
  | _, vs, _ => .ok vs

/-- a dictionary after its keys `ks` have become `ks'` and its values `vs` have become `vs'` (util/impl.py:187-199) -/
def setDict (ks vs ks' vs' : List V) : V :=
  let all := (ks.zip vs).zip (ks'.zip vs')
  let kept := (all.filter fun e => decide (e.1.1 = e.2.1)).map Prod.fst
  let new := ((all.filter fun e => decide (e.1 ≠ e.2)).map Prod.snd).foldl (fun d e => Dict.set d e.1 e.2) kept
  .dict (new.map Prod.fst) (new.map Prod.snd)

/-! ## `_substitute_inplace` -/

section
variable (env : Env) (same : Mem → Nat → Nat → Bool) (repl : Mem → V → Except PyErr (Option V)) (expand : Nat → SubSt → Except PyErr SubSt)

/-- the recursion into what `thing` was replaced by (util/impl.py:176-207): entities are changed in place, and there is nothing to be done for a link -/
def into (r : V) (st : SubSt) : Except PyErr (V × SubSt) := match r with
  | .ref o => match expand o st with
    | .error e => .error e
    | .ok st' => .ok (.ref o, st')
  | r => .ok (r, st)

/-- `_substitute_inplace` of an entity or link (util/impl.py:168-176) -/
def leaf (thing : V) (st : SubSt) : Except PyErr (V × SubSt) := match recall thing st with
  | some w => .ok (w, st)
  | none => match repl st.mem thing with
    | .error e => .error e
    | .ok r => into expand (r.getD thing) (remember thing (r.getD thing) st)

mutual
/-- `_substitute_inplace(thing, sub, applies, visited)` (util/impl.py:140-207); `expand` is the case of an entity -/
def subI : V → SubSt → Except PyErr (V × SubSt)
  | .link s i, st => leaf repl expand (.link s i) st
  | .ref o, st => leaf repl expand (.ref o) st
  | .list l, st => match subIs l st with
    | .error e => .error e
    | .ok (l', st') => .ok (.list l', st')
  | .tuple l, st => if (V.tuple l).hash = .raises then .error .typeError
    else match recall (.tuple l) st with
      | some w => .ok (w, st)
      | none => match subIs l (remember (.tuple l) (.tuple l) st) with
        | .error e => .error e
        | .ok (l', st') => .ok (.tuple l', remember (.tuple l) (.tuple l') st')
  | .dict ks vs, st => match subIs ks st with
    | .error e => .error e
    | .ok (ks', st1) => match subIs vs st1 with
      | .error e => .error e
      | .ok (vs', st2) => .ok (setDict ks vs ks' vs', st2)
  | .obj t ns vs, st => match subIs vs st with
    | .error e => .error e
    | .ok (vs', st1) => match setObj env st1.mem t ns vs vs' with
      | .error e => .error e
      | .ok us => .ok (.obj t ns us, st1)
  | .none, st => .ok (.none, st)
  | .bool b, st => .ok (.bool b, st)
  | .int i, st => .ok (.int i, st)
  | .float q, st => .ok (.float q, st)
  | .str s, st => .ok (.str s, st)
/-- each of a list -/
def subIs : List V → SubSt → Except PyErr (List V × SubSt)
  | [], st => .ok ([], st)
  | v :: vs, st => match subI v st with
    | .error e => .error e
    | .ok (w, st1) => match subIs vs st1 with
      | .error e => .error e
      | .ok (ws, st2) => .ok (w :: ws, st2)
end

/-- `for k, v in thing.as_dict().items(): ...` (util/impl.py:201-205) for the entity `o` of class `c` -/
def setFields (o : Nat) (c : ECls) : List (String × V) → SubSt → Except PyErr SubSt
  | [], st => .ok st
  | (a, v) :: fs, st => match subI env repl expand v st with
    | .error e => .error e
    | .ok (w, st1) => if w = v then setFields o c fs st1 else match setAttr env same st1.mem o c a w with
      | .error e => .error e
      | .ok m => setFields o c fs { st1 with mem := m }
end

/-- the attributes that `as_dict()` shows, with their values (dict_serializable.py:95-108) -/
def shown (m : Mem) (x : EObj) : List (String × V) := (x.fields.filter (fun f => decide (f.1 ∉ skip x.cls))).map (fun f => (f.1, getattr m x f))

/-- an entity is changed in place; at most `k` entities nested -/
def expandI (env : Env) (same : Mem → Nat → Nat → Bool) (repl : Mem → V → Except PyErr (Option V)) : Nat → Nat → SubSt → Except PyErr SubSt
  | 0, _, _ => .error .recursionError
  | k + 1, o, st => match st.mem[o]? with
    | none => .error .other
    | some x => setFields env same repl (expandI env same repl k) o x.cls (shown st.mem x) st

/-- `_substitute_inplace(thing, sub, applies)`: what is returned, and the memory afterwards -/
def substituteI (env : Env) (same : Mem → Nat → Nat → Bool) (repl : Mem → V → Except PyErr (Option V)) (k : Nat) (m : Mem) (thing : V) :
    Except PyErr (V × Mem) :=
  match subI env repl (expandI env same repl k) thing { visited := [], mem := m } with
  | .error e => .error e
  | .ok (w, st) => .ok (w, st.mem)

/-- `substitute_links(v, scope, allow_fallback=fallback, inplace=True)` (util/impl.py:270-301) -/
def linksInplace (env : Env) (same : Mem → Nat → Nat → Bool) (scope : Option String) (fallback : Bool) (m : Mem) (v : V) : Except PyErr (V × Mem) :=
  substituteI env same (linkRepl env.lower scope fallback v) 1 m v

/-- `substitute_objects(v, index, inplace=True)` (util/impl.py:304-331), at most `k` entities nested -/
def objectsInplace (env : Env) (same : Mem → Nat → Nat → Bool) (index : Dict (String × String) Nat) (k : Nat) (m : Mem) (v : V) : Except PyErr (V × Mem) :=
  substituteI env same (objectRepl index) k m v

end Verif.Inplace
