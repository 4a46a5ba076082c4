import Verif.Py.Dict
/-!
# Model of the recursive traversals

`gemd.util.impl.recursive_foreach` (util/impl.py:391-444) and `recursive_flatmap` (util/impl.py:447-503) over an arbitrary graph of
Python objects. The graph is given by what the code asks of an object: how it hashes, what is pushed on the queue for it, and whether
it is a BaseEntity.
-/

namespace Verif.Traverse
open Verif.Py

/-- What `this.__hash__ is not None` and `this in seen` do:
`__hash__` is None (lists, dicts); the object is hashed and compared by the key `k`; hashing raises a TypeError (a tuple that contains
a list). -/
inductive Hash (κ : Type) where
  | unhashable | key (k : κ) | raises
  deriving DecidableEq

/-- A graph of Python objects of type `α`, in a memory of type `σ`. -/
structure Graph (σ α κ : Type) where
  hash : α → Hash κ
  /-- the objects pushed on the queue, in the order in which they are pushed -/
  kids : σ → α → List α
  entity : α → Bool

variable {σ α κ : Type} [DecidableEq κ]

/-- lines 421-425: `none` if the object is skipped, else the new set `seen` -/
def mark (seen : List κ) : Hash κ → Option (List κ)
  | .unhashable => some seen
  | .key k => if k ∈ seen then none else some (k :: seen)
  | .raises => none

/-- apply the function to an entity, if this is the time for it (lines 427-428 and 441-442) -/
def act (G : Graph σ α κ) (now : Bool) (func : σ → α → Except PyErr σ) (s : σ) (x : α) : Except PyErr σ :=
  if now && G.entity x then func s x else .ok s

/-- The loop of `recursive_foreach` (util/impl.py:416-444). The queue is a stack: `queue.pop()` takes the last element, which is the
head of the list here. `none`: not finished within `n` rounds. -/
def loop (G : Graph σ α κ) (applyFirst : Bool) (func : σ → α → Except PyErr σ) :
    Nat → σ → List κ → List α → Option (Except PyErr σ)
  | 0, _, _, _ => none
  | _ + 1, s, _, [] => some (.ok s)
  | n + 1, s, seen, x :: queue =>
    if G.hash x = .raises then some (.error .typeError)
    else
      match mark seen (G.hash x) with
      | none => loop G applyFirst func n s seen queue
      | some seen' =>
        match act G applyFirst func s x with
        | .error e => some (.error e)
        | .ok s1 =>
          match act G (!applyFirst) func s1 x with
          | .error e => some (.error e)
          | .ok s2 => loop G applyFirst func n s2 seen' ((G.kids s1 x).reverse ++ queue)

/-- `recursive_foreach(obj, func, apply_first=applyFirst)` -/
def recursiveForeach (G : Graph σ α κ) (applyFirst : Bool) (func : σ → α → Except PyErr σ) (n : Nat) (s : σ) (x : α) :
    Option (Except PyErr σ) := loop G applyFirst func n s [] [x]

/-- `res.extend(func(this))` (util/impl.py:487) -/
def collect {β : Type} (func : σ → α → Except PyErr (σ × List β)) (t : σ × List β) (x : α) : Except PyErr (σ × List β) :=
  match func t.1 x with
  | .ok (s', r) => .ok (s', t.2 ++ r)
  | .error e => .error e

/-- `recursive_flatmap(obj, func)` (util/impl.py:473-503): the same loop, the function applied first and its results collected. `G` is
here the graph as this function walks it: attributes sorted by name, back references left out if `unidirectional`, lists reversed. -/
def recursiveFlatmap {β : Type} (G : Graph σ α κ) (func : σ → α → Except PyErr (σ × List β)) (n : Nat) (s : σ) (x : α) :
    Option (Except PyErr (σ × List β)) :=
  loop (σ := σ × List β) ⟨G.hash, fun t => G.kids t.1, G.entity⟩ true
    (collect func) n (s, []) [] [x]

end Verif.Traverse
