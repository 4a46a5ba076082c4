import Verif.Model.Value
/-!
# Model of entity equality: `BaseEntity.__eq__` and `BaseEntity._cached_equals` (base_entity.py:120-218)

Entities are numbers. What the code reads of them is given by two functions: `U o`, the uids, and `D o`, the dictionary
`_dict_for_compare()` without the uids, in the order in which Python iterates over it. That order comes from a set of strings
(dict_serializable.py:105-106) and differs from run to run, so `D o` may be any arrangement of `dictForCompare` below.
-/

namespace Verif.Schema
open Verif.Py Verif.Value

/-- an attribute as the property returns it: the name and labels of an ingredient run come from its spec, if that is an object
(ingredient_run.py:86-102); all others are the private attribute -/
def getattr (m : Mem) (x : EObj) (f : String × V) : V :=
  if x.cls = .ingredientRun ∧ (f.1 = "_name" ∨ f.1 = "_labels") then
    match Dict.get? x.fields "_spec" with
    | some (.ref p) => match m[p]? with
      | some y => if y.cls = .ingredientSpec then (Dict.get? y.fields f.1).getD .none else f.2
      | none => f.2
    | _ => f.2
  else f.2

end Verif.Schema

namespace Verif.Equal
open Verif.Py Verif.Value

/-! ## What is compared -/

/-- `x.lstrip('_')` -/
def lstrip (s : String) : String := String.ofList (s.toList.dropWhile (· = '_'))

/-- the `typ` of each class (the `typ=` argument of each class statement in gemd/entity/template and gemd/entity/object) -/
def typ : ECls → String
  | .propertyTemplate => "property_template" | .conditionTemplate => "condition_template" | .parameterTemplate => "parameter_template"
  | .materialTemplate => "material_template" | .processTemplate => "process_template" | .measurementTemplate => "measurement_template"
  | .materialSpec => "material_spec" | .processSpec => "process_spec" | .ingredientSpec => "ingredient_spec"
  | .measurementSpec => "measurement_spec" | .materialRun => "material_run" | .processRun => "process_run"
  | .ingredientRun => "ingredient_run" | .measurementRun => "measurement_run"

/-- `as_dict()` without the uids (dict_serializable.py:95-108): the attributes that are not in `skip`, without the leading underscore,
and the type (the `template` of a run, which is looked up through its spec, is not an attribute and not in the dictionary). -/
def asDict (m : Mem) (x : EObj) : List (String × V) :=
  (x.fields.filter (fun f => decide (f.1 ∉ skip x.cls))).map (fun f => (lstrip f.1, Schema.getattr m x f)) ++ [("type", .str (typ x.cls))]

/-- `_dict_for_compare()` without the uids: some back references are added (material_run.py:113-117, process_run.py:106-110,
process_spec.py:104-108) -/
def dictForCompare (m : Mem) (x : EObj) : List (String × V) :=
  asDict m x ++ match x.cls with
    | .materialRun => [("measurements", (Dict.get? x.fields "_measurements").getD .none)]
    | .processRun => [("ingredients", (Dict.get? x.fields "_ingredients").getD .none)]
    | .processSpec => [("ingredients", (Dict.get? x.fields "_ingredients").getD .none)]
    | _ => []

/-- `dict == dict`, for the dictionaries of uids -/
def sameUids (a b : List (String × String)) : Bool :=
  decide (a.length = b.length) && a.all (fun e => decide (Dict.get? b e.1 = some e.2))

/-- `d.keys() == d'.keys()` -/
def sameKeys (a b : List (String × V)) : Bool :=
  a.all (fun e => decide (e.1 ∈ b.map Prod.fst)) && b.all (fun e => decide (e.1 ∈ a.map Prod.fst))

/-- `list(v)` of an iterable that is not a string (base_entity.py:162-166); iterating over a dictionary gives its keys -/
def iter : V → Option (List V)
  | .list l => some l
  | .tuple l => some l
  | .dict ks _ => some ks
  | _ => none

/-! ## The comparison -/

/-- The cache: unordered pairs of entities, with `none` for "in progress" (base_entity.py:131-138). -/
abbrev Cache := Dict (Nat × Nat) (Option Bool)

/-- `frozenset((id(this), id(that)))` -/
def key (a b : Nat) : Nat × Nat := (min a b, max a b)

/-- A computation that uses the cache: `none` if it does not finish in the given number of nested calls; an exception; or a result and
the cache afterwards. -/
abbrev Run (α : Type) := Option (Except PyErr (α × Cache))

/-- continue with the result -/
def Run.next {α β : Type} (r : Run α) (f : α → Cache → Run β) : Run β :=
  match r with
  | none => none
  | some (.error e) => some (.error e)
  | some (.ok (a, c)) => f a c

/-- a comparison that does not use the cache (`==` between values that are not both entities) -/
abbrev Plain := Option (Except PyErr Bool)

/-- use a plain comparison -/
def Plain.next {β : Type} (r : Plain) (f : Bool → Run β) : Run β :=
  match r with
  | none => none
  | some (.error e) => some (.error e)
  | some (.ok b) => f b

section
variable (U : Nat → List (String × String)) (D : Nat → List (String × V)) (eqv : V → V → Plain)
  (rec : Cache → Nat → Nat → Run (Option Bool))

/-- The loop over the candidates for the entity `x` (base_entity.py:186-193): `found` so far, `i` the index of the first of `ys`.
Returns `found` and, if True, the index. A candidate that is a link or another object without uids gives False (its keys differ); any
other value has no `_dict_for_compare`: AttributeError. -/
def candidates (x : Nat) : List V → Nat → Option Bool → Cache → Run (Option Bool × Nat)
  | [], i, found, c => some (.ok ((found, i), c))
  | .ref y :: ys, i, found, c =>
    (rec c x y).next fun r c' => match r with
      | some true => some (.ok ((some true, i), c'))
      | none => candidates x ys (i + 1) none c'
      | some false => candidates x ys (i + 1) found c'
  | .link _ _ :: ys, i, found, c => candidates x ys (i + 1) found c
  | .obj _ _ _ :: ys, i, found, c => candidates x ys (i + 1) found c
  | _ :: _, _, _, _ => some (.error .attributeError)

/-- `x in that_list`: from left to right -/
def isIn (x : V) (c : Cache) : List V → Run Bool
  | [] => some (.ok (false, c))
  | y :: ys => (eqv y x).next fun b => if b then some (.ok (true, c)) else isIn x c ys

/-- The loop over `this_list` (base_entity.py:181-203). -/
def crawl : List V → List V → Cache → Run Bool
  | [], _, c => some (.ok (true, c))
  | .ref x :: xs, ys, c =>
    (candidates rec x ys 0 (some false) c).next fun r c' => match r with
      | (some true, i) => crawl xs (ys.eraseIdx i) c'
      | (none, _) => crawl xs ys c'
      | (some false, _) => some (.ok (false, c'))
  | x :: xs, ys, c =>
    (isIn eqv x c ys).next fun b c' => if b then crawl xs ys c' else some (.ok (false, c'))

/-- comparing two iterables (base_entity.py:167-203); `ua`, `ub`: whether the entities have uids -/
def compareLists (ua ub : Bool) (l l' : List V) (c : Cache) : Run Bool :=
  if l.length ≠ l'.length then
    some (.ok ((l.isEmpty && ua) || (l'.isEmpty && ub), c))
  else crawl eqv rec l l' c

/-- comparing two values that are not both entities -/
def compareOther (ua ub : Bool) (v w : V) (c : Cache) : Run Bool :=
  match iter v, iter w with
  | some l, some l' => compareLists eqv rec ua ub l l' c
  | _, _ => (eqv v w).next fun b => some (.ok (b, c))

/-- comparing the values of one key (base_entity.py:157-207) -/
def compareValue (ua ub : Bool) (v w : V) (c : Cache) : Run Bool :=
  match v, w with
  | .ref x, .ref y => (rec c x y).next fun r c' => some (.ok (decide (r ≠ some false), c'))
  | v, w => compareOther eqv rec ua ub v w c

/-- The loop over the keys (base_entity.py:154-207). -/
def compareFields (ua ub : Bool) (d' : List (String × V)) : List (String × V) → Cache → Run Bool
  | [], c => some (.ok (true, c))
  | (k, v) :: fs, c =>
    match Dict.get? d' k with
    | none => some (.error .keyError)
    | some w => (compareValue eqv rec ua ub v w c).next fun b c' => if b then compareFields ua ub d' fs c' else some (.ok (false, c'))

/-- One call of `_cached_equals(this, that, cache=c)` (base_entity.py:120-207), recursive calls being `rec`. -/
def body (c : Cache) (a b : Nat) : Run (Option Bool) :=
  match Dict.get? c (key a b) with
  | some r => some (.ok (r, c))
  | none =>
    let c1 := Dict.set c (key a b) none
    if !sameKeys (D a) (D b) then some (.ok (some false, Dict.set c1 (key a b) (some false)))
    else if !sameUids (U a) (U b) then some (.ok (some false, Dict.set c1 (key a b) (some false)))
    else
      (compareFields eqv rec (!(U a).isEmpty) (!(U b).isEmpty) (D b) (D a) c1).next fun r c2 =>
        some (.ok (some r, Dict.set c2 (key a b) (some r)))
end

/-- `_cached_equals`, with at most `n` nested calls -/
def cachedEquals (U : Nat → List (String × String)) (D : Nat → List (String × V)) (eqv : V → V → Plain) :
    Nat → Cache → Nat → Nat → Run (Option Bool)
  | 0, _, _, _ => none
  | n + 1, c, a, b => body U D eqv (cachedEquals U D eqv n) c a b

/-- `a == b` for entities (base_entity.py:214-216): an empty cache -/
def entityEq (U : Nat → List (String × String)) (D : Nat → List (String × V)) (eqv : V → V → Plain) (n : Nat) (a b : Nat) : Plain :=
  match cachedEquals U D eqv n [] a b with
  | none => none
  | some (.error e) => some (.error e)
  | some (.ok (r, _)) => some (.ok (decide (r = some true)))

/-! ## Plain comparison: `==` of Python values -/

/-- both comparisons -/
def Plain.and (p : Plain) (q : Plain) : Plain :=
  match p with
  | none => none
  | some (.error e) => some (.error e)
  | some (.ok false) => some (.ok false)
  | some (.ok true) => q

/-- the number that `True`, `1` and `1.0` are -/
def num : V → Option Rat
  | .bool b => some (if b then 1 else 0)
  | .int n => some n
  | .float r => some r
  | _ => none

/-- does the entity `o` carry the id under the scope? (`entity == link`, `entity == (scope, id)`: C32; scopes are lower-cased here) -/
def carries (U : Nat → List (String × String)) (o : Nat) (s i : String) : Bool :=
  match (U o).find? (fun e => e.1.toLower == s.toLower) with
  | some e => e.2 == i
  | none => false

mutual
/-- `v == w` between Python values: numbers by value; containers element by element, where an element is equal to itself without
comparison; dictionaries and attribute objects (dict_serializable.py:192-198) key by key; links and entities as in C32 (a pair that
does not begin with a string has no `lower`, base_entity.py:213, case_insensitive_dict.py:63-64: AttributeError); two entities by `ent`. Simplified: the keys of a dictionary are looked up by plain equality of the keys as values. -/
def eqV (U : Nat → List (String × String)) (ent : Nat → Nat → Plain) : V → V → Plain
  | .none, .none => some (.ok true)
  | .str s, .str t => some (.ok (s == t))
  | .bool b, w => some (.ok (num (.bool b) == num w))
  | .int n, w => some (.ok (num (.int n) == num w))
  | .float r, w => some (.ok (num (.float r) == num w))
  | .link s i, .link t j => some (.ok (s == t && i == j))
  | .link s i, .tuple [.str t, .str j] => some (.ok (s == t && i == j))
  | .tuple [.str t, .str j], .link s i => some (.ok (s == t && i == j))
  | .link s i, .ref o => some (.ok (carries U o s i))
  | .ref o, .link s i => some (.ok (carries U o s i))
  | .tuple [.str s, .str i], .ref o => some (.ok (carries U o s i))
  | .ref o, .tuple [.str s, .str i] => some (.ok (carries U o s i))
  | .ref _, .tuple [.str _, _] => some (.ok false)
  | .tuple [.str _, _], .ref _ => some (.ok false)
  | .ref _, .tuple [_, _] => some (.error .attributeError)
  | .tuple [_, _], .ref _ => some (.error .attributeError)
  | .ref o, .ref p => if o = p then some (.ok true) else ent o p
  | .list l, .list l' => if l.length = l'.length then eqVs U ent l l' else some (.ok false)
  | .tuple l, .tuple l' => if l.length = l'.length then eqVs U ent l l' else some (.ok false)
  | .dict ks vs, .dict ks' vs' => if ks.length = ks'.length then eqItems U ent ks' vs' ks vs else some (.ok false)
  | .obj t ns vs, .obj t' ns' vs' => if t = t' ∧ ns.length = ns'.length then eqAttrs U ent ns' vs' ns vs else some (.ok false)
  | _, _ => some (.ok false)
/-- element by element, up to the shorter list -/
def eqVs (U : Nat → List (String × String)) (ent : Nat → Nat → Plain) : List V → List V → Plain
  | v :: vs, w :: ws => (eqV U ent v w).and (eqVs U ent vs ws)
  | _, _ => some (.ok true)
/-- every key of the first dictionary is in the second, with an equal value -/
def eqItems (U : Nat → List (String × String)) (ent : Nat → Nat → Plain) (ks' vs' : List V) : List V → List V → Plain
  | k :: ks, v :: vs => match Dict.get? (ks'.zip vs') k with
    | some w => (eqV U ent v w).and (eqItems U ent ks' vs' ks vs)
    | none => some (.ok false)
  | _, _ => some (.ok true)
/-- every attribute of the first object is in the second, with an equal value -/
def eqAttrs (U : Nat → List (String × String)) (ent : Nat → Nat → Plain) (ns' : List String) (vs' : List V) : List String → List V → Plain
  | n :: ns, v :: vs => match Dict.get? (ns'.zip vs') n with
    | some w => (eqV U ent v w).and (eqAttrs U ent ns' vs' ns vs)
    | none => some (.ok false)
  | _, _ => some (.ok true)
end

/-- `a == b` for entities, when comparisons of plain values that contain entities are nested at most `k` deep; each such comparison
starts with an empty cache. `n` bounds the nested calls of `_cached_equals`. -/
def equals (U : Nat → List (String × String)) (D : Nat → List (String × V)) (n : Nat) : Nat → Nat → Nat → Plain
  | 0, _, _ => none
  | k + 1, a, b => entityEq U D (eqV U (equals U D n k)) n a b

end Verif.Equal
