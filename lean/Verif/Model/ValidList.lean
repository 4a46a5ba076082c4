import Verif.Py.Dict
/-!
# Model of `gemd.entity.valid_list.ValidList` and `gemd.entity.setters`

`ok` is `isinstance(value, content_type)`. The trigger is any Python callable: it may act on a world state `σ`,
may raise, and returns None (`none`) or a replacement. Arguments are iterables: a container that can be iterated
repeatedly, or a one-shot iterator that yields its items only the first time it is iterated.
-/

set_option linter.unusedSectionVars false

namespace Verif.VList
open Verif.Py

variable {α σ : Type}

/-- content filter and trigger of a list (valid_list.py:29-59); `content_type` normalisation (34-45) is not modelled: it
yields the tuple of types that `ok` tests. -/
structure Cfg (α σ : Type) where
  ok : α → Bool
  trigger : Option (σ → α → σ × Except PyErr (Option α))

/-- an iterable argument -/
inductive Arg (α : Type) where
  | seq (l : List α)       -- list, tuple, dict view, ...
  | oneShot (l : List α)   -- generator, map, zip, file, ...
  | notIterable

/-- items yielded by the first iteration over the argument -/
def Arg.first : Arg α → List α
  | .seq l => l
  | .oneShot l => l
  | .notIterable => []

/-- items yielded by any later iteration (after the first was run to its end) -/
def Arg.again : Arg α → List α
  | .seq l => l
  | .oneShot _ => []
  | .notIterable => []

/-- `result = self._trigger(value); if result is not None: value = result` (valid_list.py:104-107, 128-131, 187-190) -/
def fire (c : Cfg α σ) (w : σ) (a : α) : σ × Except PyErr α :=
  match c.trigger with
  | none => (w, .ok a)
  | some t =>
    match t w a with
    | (w', .ok (some b)) => (w', .ok b)
    | (w', .ok none) => (w', .ok a)
    | (w', .error e) => (w', .error e)

/-- the trigger loop over a cache (valid_list.py:54-57, 157-162) -/
def fireAll (c : Cfg α σ) (w : σ) : List α → σ × Except PyErr (List α)
  | [] => (w, .ok [])
  | a :: l =>
    match fire c w a with
    | (w', .error e) => (w', .error e)
    | (w', .ok b) =>
      match fireAll c w' l with
      | (w'', .ok bs) => (w'', .ok (b :: bs))
      | (w'', .error e) => (w'', .error e)

/-- `for value in _list: self._validate(value)` (valid_list.py:46-47, 152-154, `_validate` 61-82) -/
def validateAll (c : Cfg α σ) (l : List α) : Bool := l.all c.ok

/-- `ValidList(_list, content_type, trigger)` (valid_list.py:29-59). The validation loop is the first iteration over the
argument, `list(_list)` and `enumerate(_list)` are later ones. (With a one-shot argument the enumeration is empty.)
A non-callable trigger (TypeError) is not modelled. -/
def init (c : Cfg α σ) (w : σ) (arg : Arg α) : σ × Except PyErr (List α) :=
  match arg with
  | .notIterable => (w, .error .typeError)
  | arg => if validateAll c arg.first then fireAll c w arg.again else (w, .error .typeError)

/-- world, list after the call, outcome -/
abbrev Ret (α σ : Type) := σ × List α × Except PyErr Unit

/-- Python's index normalisation for assignment and deletion -/
def normIdx (len : Nat) (i : Int) : Option Nat :=
  if 0 ≤ i then (if i.toNat < len then some i.toNat else none)
  else if 0 ≤ i + len then some (i + len).toNat else none

/-- `lst[i] = value` for an int index (valid_list.py:84-108) -/
def setItem (c : Cfg α σ) (w : σ) (l : List α) (i : Int) (a : α) : Ret α σ :=
  if c.ok a then
    match fire c w a with
    | (w', .error e) => (w', l, .error e)
    | (w', .ok b) =>
      match normIdx l.length i with
      | some n => (w', l.set n b, .ok ())
      | none => (w', l, .error .indexError)
  else (w, l, .error .typeError)

/-- `lst[i:j] = value` (valid_list.py:84-108): the *whole* right-hand side is validated and triggered as if it were one
element, then handed to `list.__setitem__`. `asList` says which values are iterable and what they hold; `i ≤ j ≤ len` is
assumed. -/
def setSlice (c : Cfg α σ) (asList : α → Option (List α)) (w : σ) (l : List α) (i j : Nat) (a : α) : Ret α σ :=
  if c.ok a then
    match fire c w a with
    | (w', .error e) => (w', l, .error e)
    | (w', .ok b) =>
      match asList b with
      | some bs => (w', l.take i ++ bs ++ l.drop j, .ok ())
      | none => (w', l, .error .typeError)
  else (w, l, .error .typeError)

/-- `lst.append(value)` (valid_list.py:110-132) -/
def append (c : Cfg α σ) (w : σ) (l : List α) (a : α) : Ret α σ :=
  if c.ok a then
    match fire c w a with
    | (w', .error e) => (w', l, .error e)
    | (w', .ok b) => (w', l ++ [b], .ok ())
  else (w, l, .error .typeError)

/-- `lst.extend(arg)` (valid_list.py:134-164) -/
def extend (c : Cfg α σ) (w : σ) (l : List α) (arg : Arg α) : Ret α σ :=
  match arg with
  | .notIterable => (w, l, .error .typeError)
  | arg =>
    if validateAll c arg.first then
      match fireAll c w arg.again with
      | (w', .error e) => (w', l, .error e)
      | (w', .ok bs) => (w', l ++ bs, .ok ())
    else (w, l, .error .typeError)

/-- position used by `list.insert` (clamped) -/
def insertPos (len : Nat) (i : Int) : Nat :=
  if 0 ≤ i then min i.toNat len else (i + len).toNat

/-- `lst.insert(i, value)` (valid_list.py:166-191) -/
def insert (c : Cfg α σ) (w : σ) (l : List α) (i : Int) (a : α) : Ret α σ :=
  if c.ok a then
    match fire c w a with
    | (w', .error e) => (w', l, .error e)
    | (w', .ok b) => (w', l.take (insertPos l.length i) ++ b :: l.drop (insertPos l.length i), .ok ())
  else (w, l, .error .typeError)

/-- `lst += arg`: `list.__iadd__` is inherited and neither validates nor triggers (valid_list.py:8 inherits it). -/
def iadd (l : List α) (arg : Arg α) : List α × Except PyErr Unit :=
  match arg with
  | .notIterable => (l, .error .typeError)
  | arg => (l ++ arg.first, .ok ())

/-- Operations of a history. `delItem`, `reverse` and `clear` are inherited from `list`. -/
inductive Op (α : Type) where
  | setItem (i : Int) (a : α)
  | append (a : α)
  | extend (arg : Arg α)
  | insert (i : Int) (a : α)
  | delItem (i : Int)
  | reverse
  | clear

/-- one operation -/
def step (c : Cfg α σ) (w : σ) (l : List α) : Op α → Ret α σ
  | .setItem i a => setItem c w l i a
  | .append a => append c w l a
  | .extend arg => extend c w l arg
  | .insert i a => insert c w l i a
  | .delItem i => match normIdx l.length i with
    | some n => (w, l.eraseIdx n, .ok ())
    | none => (w, l, .error .indexError)
  | .reverse => (w, l.reverse, .ok ())
  | .clear => (w, [], .ok ())

/-- a history -/
def run (c : Cfg α σ) (w : σ) (l : List α) : List (Op α) → σ × List α
  | [] => (w, l)
  | op :: ops => let r := step c w l op; run c r.1 r.2.1 ops

/-- What `validate_list` may be handed (setters.py:34-39): None, a single non-iterable (or string) object, an iterable. -/
inductive ListArg (α : Type) where
  | none
  | single (a : α)
  | iter (arg : Arg α)

/-- `validate_list(obj, typ, trigger=...)` (setters.py:11-39) -/
def validateList (c : Cfg α σ) (w : σ) : ListArg α → σ × Except PyErr (List α)
  | .none => init c w (.seq [])
  | .single a => init c w (.seq [a])
  | .iter arg => init c w arg

/-- `validate_str(obj)` (setters.py:42-64); `asStr` tells whether the object is a string and which. -/
def validateStr {Obj Str : Type} (asStr : Obj → Option Str) (o : Obj) : Except PyErr Str :=
  match asStr o with
  | some s => .ok s
  | none => .error .typeError

end Verif.VList
