import Verif.Model.Value
/-!
# Model of the recursive traversal, with the state that an exception leaves behind

`recursive_foreach` (util/impl.py:391-444) as in Model/Traverse.lean, except that the state is kept when an exception is raised, by the
callback or by hashing a tuple.
-/

namespace Verif.Traverse
open Verif.Py

variable {σ α κ : Type} [DecidableEq κ]

/-- a callback: the state it leaves, and the exception if it raises -/
abbrev Callback (σ α : Type) := σ → α → σ × Option PyErr

/-- apply the function to an entity, if this is the time for it (lines 427-428 and 441-442) -/
def actS (G : Graph σ α κ) (now : Bool) (func : Callback σ α) (s : σ) (x : α) : σ × Option PyErr :=
  if now && G.entity x then func s x else (s, none)

/-- the loop of `recursive_foreach` (util/impl.py:416-444); `none`: not finished within `n` rounds -/
def loopS (G : Graph σ α κ) (applyFirst : Bool) (func : Callback σ α) : Nat → σ → List κ → List α → Option (σ × Option PyErr)
  | 0, _, _, _ => none
  | _ + 1, s, _, [] => some (s, none)
  | n + 1, s, seen, x :: queue =>
    if G.hash x = .raises then some (s, some .typeError)
    else
      match mark seen (G.hash x) with
      | none => loopS G applyFirst func n s seen queue
      | some seen' =>
        match actS G applyFirst func s x with
        | (s1, some e) => some (s1, some e)
        | (s1, none) =>
          match actS G (!applyFirst) func s1 x with
          | (s2, some e) => some (s2, some e)
          | (s2, none) => loopS G applyFirst func n s2 seen' ((G.kids s1 x).reverse ++ queue)

/-- `recursive_foreach(obj, func, apply_first=applyFirst)` -/
def recursiveForeachS (G : Graph σ α κ) (applyFirst : Bool) (func : Callback σ α) (n : Nat) (s : σ) (x : α) : Option (σ × Option PyErr) :=
  loopS G applyFirst func n s [] [x]

end Verif.Traverse

namespace Verif.Value
open Verif.Py Verif.Traverse

/-- a callback that leaves the state as it was when it raises -/
def keeping {σ : Type} (func : σ → V → Except PyErr σ) : Callback σ V := fun s x => match func s x with
  | .ok s' => (s', none)
  | .error e => (s, some e)

/-- `set_uuids(obj, scope)` (util/impl.py:12-35), in at most `n` rounds, with the state that is left behind -/
def setUuidsS (scope : String) (gen : Nat → String) (n : Nat) (m : Mem) (drawn : Nat) (obj : V) : Option ((Mem × Nat) × Option PyErr) :=
  recursiveForeachS (foreachGraph Nat m.length) false (keeping (assignUid scope gen)) n (m, drawn) obj

end Verif.Value
