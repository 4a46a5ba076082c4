import Verif.Py.Dict
/-!
# Model of `gemd.entity.case_insensitive_dict.CaseInsensitiveDict`

The object is a `dict` subclass (`main`) carrying a second dictionary `lowercase_dict` (`low`), mapping each lower-cased
key to the key as stored. `str.lower` is an arbitrary function `lower : K → L`; nothing else about it is used.
Keys are assumed to be strings (a non-string key makes `key.lower()` raise AttributeError; not modelled).
Every mutator returns the state after the call together with the outcome, also when it raises.
-/

set_option linter.unusedSectionVars false

namespace Verif.CIDict
open Verif.Py

variable {K L V : Type} [DecidableEq K] [DecidableEq L]

/-- The two dictionaries of the object (case_insensitive_dict.py:27-31). -/
structure St (K L V : Type) where
  main : Dict K V
  low : Dict L K
  deriving DecidableEq

/-- Result of a method call: a value or an exception. -/
abbrev Res (α : Type) := Except PyErr α

/-- `_register_key` on the lower-case dictionary alone (case_insensitive_dict.py:179-195). -/
def register (lower : K → L) (low : Dict L K) (k : K) : Res (Dict L K) :=
  match low.get? (lower k) with
  | some prev => if prev ≠ k then .error .valueError else .ok (low.set (lower k) k)
  | none => .ok (low.set (lower k) k)

/-- The loop `for key in ...: self._register_key(key)`, stopping at the first exception; returns the
lower-case dictionary reached and whether it raised (case_insensitive_dict.py:30-31, 176-177). -/
def registerAll (lower : K → L) (low : Dict L K) : List K → Dict L K × Res Unit
  | [] => (low, .ok ())
  | k :: ks =>
    match register lower low k with
    | .error e => (low, .error e)
    | .ok low' => registerAll lower low' ks

/-- `CaseInsensitiveDict(seq, **kwargs)` (case_insensitive_dict.py:27-31); `items` are the items of `seq` followed by
those of `kwargs`, in order. -/
def init (lower : K → L) (items : List (K × V)) : Res (St K L V) :=
  let main := Dict.setAll [] items
  match registerAll lower [] main.keys with
  | (low, .ok ()) => .ok { main, low }
  | (_, .error e) => .error e

/-- `k in d` (case_insensitive_dict.py:64-65). -/
def contains (lower : K → L) (s : St K L V) (k : K) : Bool := s.low.has (lower k)

/-- `d[k]` (case_insensitive_dict.py:33-34): both subscriptions can raise KeyError. -/
def getItem (lower : K → L) (s : St K L V) (k : K) : Res V :=
  match s.low.get? (lower k) with
  | none => .error .keyError
  | some k' =>
    match s.main.get? k' with
    | none => .error .keyError
    | some v => .ok v

/-- `d.get(k, default)` (case_insensitive_dict.py:36-58). -/
def get (lower : K → L) (s : St K L V) (k : K) (dflt : V) : Res V :=
  if contains lower s k then getItem lower s k else .ok dflt

/-- `d[k] = v` (case_insensitive_dict.py:60-62). -/
def setItem (lower : K → L) (s : St K L V) (k : K) (v : V) : St K L V × Res Unit :=
  match register lower s.low k with
  | .error e => (s, .error e)
  | .ok low => ({ main := s.main.set k v, low }, .ok ())

/-- `del d[k]` (case_insensitive_dict.py:67-70); the two deletions in order, each of which can raise KeyError. -/
def delItem (lower : K → L) (s : St K L V) (k : K) : St K L V × Res Unit :=
  let key := (s.low.get? (lower k)).getD k
  if s.main.has key then
    let main := s.main.erase key
    if s.low.has (lower key) then ({ main, low := s.low.erase (lower key) }, .ok ())
    else ({ main, low := s.low }, .error .keyError)
  else (s, .error .keyError)

/-- `d.clear()` (case_insensitive_dict.py:72-75). -/
def clear (_ : St K L V) : St K L V := { main := [], low := [] }

/-- `d.pop(k)` without default (case_insensitive_dict.py:99-102, 105-107). -/
def pop (lower : K → L) (s : St K L V) (k : K) : St K L V × Res V :=
  match s.low.get? (lower k) with
  | none => (s, .error .keyError)
  | some k' =>
    match s.main.get? k' with
    | none => (s, .error .keyError)
    | some v => ({ main := s.main.erase k', low := s.low.erase (lower k) }, .ok v)

/-- `d.pop(k, default)` (case_insensitive_dict.py:103-107). When the key is unknown Python pops the key `None`, which
no string-keyed dictionary has, so the default is returned. -/
def popDefault (lower : K → L) (s : St K L V) (k : K) (dflt : V) : St K L V × Res V :=
  match s.low.get? (lower k) with
  | none => (s, .ok dflt)
  | some k' =>
    match s.main.get? k' with
    | none => ({ s with low := s.low.erase (lower k) }, .ok dflt)
    | some v => ({ main := s.main.erase k', low := s.low.erase (lower k) }, .ok v)

/-- `d.popitem()` (case_insensitive_dict.py:109-128): last inserted item; the deletion from `lowercase_dict` can raise. -/
def popitem (lower : K → L) (s : St K L V) : St K L V × Res (K × V) :=
  match s.main.getLast? with
  | none => (s, .error .keyError)
  | some (k, v) =>
    let main := s.main.dropLast
    if s.low.has (lower k) then ({ main, low := s.low.erase (lower k) }, .ok (k, v))
    else ({ main, low := s.low }, .error .keyError)

/-- `d.copy()` (case_insensitive_dict.py:130-140). -/
def copy (lower : K → L) (s : St K L V) : Res (St K L V) := init lower s.main

/-- the conflict pre-check of `update` (case_insensitive_dict.py:166-171) -/
def conflicts (lower : K → L) (low : Dict L K) (k : K) : Bool :=
  match low.get? (lower k) with
  | some prev => decide (prev ≠ k)
  | none => false

/-- `d.update(mapping, **kwargs)` (case_insensitive_dict.py:142-177); `batch` are the items of `mapping` followed by
those of `kwargs`. -/
def update (lower : K → L) (s : St K L V) (batch : List (K × V)) : St K L V × Res Unit :=
  if (batch.map Prod.fst).any (conflicts lower s.low) then (s, .error .valueError)
  else
    let r := registerAll lower s.low (batch.map Prod.fst)
    ({ main := s.main.setAll batch, low := r.1 }, r.2)

/-- `d.setdefault(k, v)`: not overridden, so CPython's `dict.setdefault` acts on the main dictionary only
(case_insensitive_dict.py:8 inherits it). -/
def setdefault (s : St K L V) (k : K) (v : V) : St K L V × V :=
  match s.main.get? k with
  | some w => (s, w)
  | none => ({ s with main := s.main.set k v }, v)

/-- The operations of a history. -/
inductive Op (K V : Type) where
  | setItem (k : K) (v : V)
  | delItem (k : K)
  | pop (k : K)
  | popDefault (k : K) (d : V)
  | popitem
  | clear
  | update (batch : List (K × V))
  | becomeCopy                    -- `d = d.copy()`
  | getItem (k : K)
  | get (k : K) (d : V)
  | contains (k : K)
  | items                         -- `list(d.items())`

/-- What the caller of an operation observes. -/
inductive Out (K V : Type) where
  | done | val (v : V) | bool (b : Bool) | item (k : K) (v : V) | items (l : List (K × V)) | raised (e : PyErr)
  deriving DecidableEq

def Out.ofUnit : Res Unit → Out K V
  | .ok () => .done
  | .error e => .raised e

def Out.ofVal : Res V → Out K V
  | .ok v => .val v
  | .error e => .raised e

def Out.ofItem : Res (K × V) → Out K V
  | .ok (k, v) => .item k v
  | .error e => .raised e

/-- One operation: the state after it and what the caller sees. -/
def step (lower : K → L) (s : St K L V) : Op K V → St K L V × Out K V
  | .setItem k v => let r := setItem lower s k v; (r.1, .ofUnit r.2)
  | .delItem k => let r := delItem lower s k; (r.1, .ofUnit r.2)
  | .pop k => let r := pop lower s k; (r.1, .ofVal r.2)
  | .popDefault k d => let r := popDefault lower s k d; (r.1, .ofVal r.2)
  | .popitem => let r := popitem lower s; (r.1, .ofItem r.2)
  | .clear => (clear s, .done)
  | .update b => let r := update lower s b; (r.1, .ofUnit r.2)
  | .becomeCopy => match copy lower s with
    | .ok s' => (s', .done)
    | .error e => (s, .raised e)
  | .getItem k => (s, .ofVal (getItem lower s k))
  | .get k d => (s, .ofVal (get lower s k d))
  | .contains k => (s, .bool (contains lower s k))
  | .items => (s, .items s.main)

/-- A history of operations and the list of observations. -/
def run (lower : K → L) (s : St K L V) : List (Op K V) → St K L V × List (Out K V)
  | [] => (s, [])
  | op :: ops =>
    let r := step lower s op
    let r' := run lower r.1 ops
    (r'.1, r.2 :: r'.2)

/-- The operations of a history, the inherited `setdefault` among them. -/
inductive Call (K V : Type) where
  | op (o : Op K V)
  | setdefault (k : K) (v : V)

/-- One of these operations. -/
def callOne (lower : K → L) (s : St K L V) : Call K V → St K L V × Out K V
  | .op o => step lower s o
  | .setdefault k v => let r := setdefault s k v; (r.1, .val r.2)

/-- A history of these. -/
def calls (lower : K → L) (s : St K L V) : List (Call K V) → St K L V × List (Out K V)
  | [] => (s, [])
  | c :: cs =>
    let r := callOne lower s c
    let r' := calls lower r.1 cs
    (r'.1, r.2 :: r'.2)

end Verif.CIDict
