import Verif.Model.CIDict
/-!
# Model of links: `BaseEntity.to_link`, `LinkByUID.from_entity` and the comparisons

Scopes are strings (a scope that is not a string makes `key.lower()` raise AttributeError; modelled for the first element of a pair
only). `str.lower` is an arbitrary function `lower`.
-/

namespace Verif.Link
open Verif.Py Verif.CIDict

/-- The Python values that occur as ids and as elements of tuples: None, strings, and others (represented by a number, equal only to
themselves). -/
inductive Val where
  | none | str (s : String) | other (n : Int)
  deriving DecidableEq

/-- the uids of an entity: a CaseInsensitiveDict (base_entity.py:51-59) -/
abbrev Uids := St String String Val

/-- LinkByUID (link_by_uid.py:25-28) -/
structure Link where
  scope : String
  id : Val
  deriving DecidableEq

/-- `self.uids.get(scope)`, with the default None -/
def getUid (lower : String → String) (u : Uids) (scope : String) : Except PyErr Val := CIDict.get lower u scope .none

/-- Which scope `to_link` looks up (base_entity.py:97-98): the first of the entity if none is requested, or if the requested one is
missing and a fallback is allowed. -/
def chooseScope (lower : String → String) (u : Uids) (first : String) (fallback : Bool) : Option String → String
  | .none => first
  | some r => if fallback && !contains lower u r then first else r

/-- the end of `to_link` (base_entity.py:101-106), `uid` being what was looked up under `scope` -/
def linkFor (scope : String) : Except PyErr Val → Except PyErr Link
  | .error e => .error e
  | .ok .none => .error .valueError
  | .ok id => .ok ⟨scope, id⟩

/-- `e.to_link(scope, allow_fallback=fallback)` (base_entity.py:75-106). It reads the uids and returns; there is no state to return. -/
def toLink (lower : String → String) (u : Uids) (scope : Option String) (fallback : Bool) : Except PyErr Link :=
  match u.main with
  | [] => .error .valueError
  | (first, _) :: _ =>
    linkFor (chooseScope lower u first fallback scope) (getUid lower u (chooseScope lower u first fallback scope))

/-- `if not entity.uids: entity.add_uid(scope, str(uuid4()))` (link_by_uid.py:59-61); `fresh` is the uuid drawn -/
def ensureUid (lower : String → String) (fresh : String) (u : Uids) (scope : String) : Uids × Except PyErr Unit :=
  match u.main with
  | [] => setItem lower u scope (.str fresh)
  | _ => (u, .ok ())

/-- `LinkByUID.from_entity(e, scope=scope)` (link_by_uid.py:33-65): the uids after the call, and the link -/
def fromEntity (lower : String → String) (fresh : String) (u : Uids) (scope : Option String) : Uids × Except PyErr Link :=
  let sc := scope.getD "auto"
  if contains lower u sc then
    match getItem lower u sc with
    | .ok id => (u, .ok ⟨sc, id⟩)
    | .error e => (u, .error e)
  else
    match ensureUid lower fresh u sc with
    | (u', .error e) => (u', .error e)
    | (u', .ok ()) =>
      match u'.main with
      | (s, i) :: _ => (u', .ok ⟨s, i⟩)
      | [] => (u', .error .other)

/-- `entity == link` (base_entity.py:210-211) -/
def entityEqLink (lower : String → String) (u : Uids) (l : Link) : Except PyErr Bool :=
  match getUid lower u l.scope with
  | .ok v => .ok (decide (v = l.id))
  | .error e => .error e

/-- `link == entity` (link_by_uid.py:70-74) -/
def linkEqEntity (lower : String → String) (l : Link) (u : Uids) : Except PyErr Bool :=
  if contains lower u l.scope then
    match getItem lower u l.scope with
    | .ok v => .ok (decide (v = l.id))
    | .error e => .error e
  else .ok false

/-- `entity == tuple` (base_entity.py:212-213); the first element must be a string, or `in` raises AttributeError. `tuple == entity` is
the same: `tuple.__eq__` returns NotImplemented and Python tries this method. -/
def entityEqTuple (lower : String → String) (u : Uids) : List Val → Except PyErr Bool
  | [.str s, i] =>
    if contains lower u s then
      match getItem lower u s with
      | .ok v => .ok (decide (v = i))
      | .error e => .error e
    else .ok false
  | [_, _] => .error .attributeError
  | _ => .ok false

/-- `link == tuple` (link_by_uid.py:75-76), and `tuple == link`, as above -/
def linkEqTuple (l : Link) (t : List Val) : Bool := decide (t.length = 2) && decide ([.str l.scope, l.id] = t)

/-- `link == link`: comparison of the dictionaries {scope, id, type} (link_by_uid.py:77-78, dict_serializable.py:192-198) -/
def linkEqLink (a b : Link) : Bool := decide (a.scope = b.scope) && decide (a.id = b.id)

/-- `hash(link)` (link_by_uid.py:80-81), given Python's hash of tuples -/
def linkHash (tupleHash : List Val → Int) (l : Link) : Int := tupleHash [.str l.scope, l.id]

end Verif.Link
