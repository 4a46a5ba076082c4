import Verif.Model.Bounds
/-!
# Model of `CategoricalBounds` and `CompositionBounds` as objects that refer to set objects

`Verif.Model.Bounds` treats bounds as values. Here the sets of categories are objects, because the setter keeps a set it is given and does not copy it
(categorical_bounds.py:38-39, composition_bounds.py:39-40). The code of the two classes is the same up to names; it is modelled once. A state has only objects of one of
the two classes.
-/

set_option linter.unusedSectionVars false

namespace Verif.SetAlias
open Verif.Py Verif.Bounds

variable {S : Type} [DecidableEq S]

/-- the set objects (lists up to membership), and for each bounds object the number of the set that is its `_categories` -/
structure Objs (S : Type) where
  sets : List (List (Elem S))
  bounds : List Nat

/-- an argument of the constructor and of the `categories` setter: None, a list or tuple, a set object, or something else -/
inductive CatArg (S : Type) where
  | none | list (l : List (Elem S)) | set (i : Nat) | other

/-- an argument of `union` and `update`: a bounds object, a categorical value, given by the categories of its `_to_bounds()` (nominal_categorical.py:36-47,
discrete_categorical.py:51-62, which make a new set) or the exception this raises, or something else -/
inductive Other (S : Type) where
  | bounds (c : Nat) | value (r : Except PyErr (List S)) | other

/-- `self._categories = ...` (categorical_bounds.py:34-41): the set object assigned -/
def choose (s : Objs S) : CatArg S → Objs S × Except PyErr Nat
  | .none => ({ s with sets := s.sets ++ [[]] }, .ok s.sets.length)
  | .list l => ({ s with sets := s.sets ++ [l] }, .ok s.sets.length)
  | .set i => (s, .ok i)
  | .other => (s, .error .valueError)

/-- `all(isinstance(x, str) for x in self.categories)` (categorical_bounds.py:43) -/
def allStr (s : Objs S) (i : Nat) : Bool := (s.sets[i]?.getD []).all Elem.isStr

/-- `CategoricalBounds(categories)` (categorical_bounds.py:23-25): the number of the new object. If the setter raises there is no new bounds object. -/
def construct (s : Objs S) (a : CatArg S) : Objs S × Except PyErr Nat :=
  match choose s a with
  | (s, .error e) => (s, .error e)
  | (s, .ok i) => if allStr s i then ({ s with bounds := s.bounds ++ [i] }, .ok s.bounds.length) else (s, .error .valueError)

/-- `bounds.categories = categories` (categorical_bounds.py:32-44): stored first, checked afterwards -/
def assign (s : Objs S) (b : Nat) (a : CatArg S) : Objs S × Except PyErr Unit :=
  match choose s a with
  | (s, .error e) => (s, .error e)
  | (s, .ok i) => ({ s with bounds := s.bounds.set b i }, if allStr s i then .ok () else .error .valueError)

/-- the `categories` of a bounds object -/
def categories (s : Objs S) (b : Nat) : List (Elem S) := match s.bounds[b]? with
  | some i => s.sets[i]?.getD []
  | none => []

/-- `for bounds in others: ...; result.update(bounds.categories)` (categorical_bounds.py:108-111); `result` is a set that nobody else has yet -/
def gather (s : Objs S) : List (Elem S) → List (Other S) → Except PyErr (List (Elem S))
  | acc, [] => .ok acc
  | acc, .bounds c :: rest => gather s (acc ++ categories s c) rest
  | acc, .value (.ok l) :: rest => gather s (acc ++ l.map Elem.str) rest
  | _, .value (.error e) :: _ => .error e
  | _, .other :: _ => .error .typeError

/-- is the argument neither a bounds object nor a categorical value? (categorical_bounds.py:101) -/
def Other.bad : Other S → Bool
  | .other => true
  | _ => false

/-- `bounds.union(*others)` (categorical_bounds.py:78-112): the number of the new bounds object -/
def union (s : Objs S) (b : Nat) (others : List (Other S)) : Objs S × Except PyErr Nat :=
  if others.any Other.bad then (s, .error .typeError)
  else match gather s (categories s b) others with
    | .error e => (s, .error e)
    | .ok result => construct { s with sets := s.sets ++ [result] } (.set s.sets.length)

/-- `bounds.update(*others)` (categorical_bounds.py:114-128): the union's set object becomes this object's. Nobody keeps the union itself. -/
def update (s : Objs S) (b : Nat) (others : List (Other S)) : Objs S × Except PyErr Unit :=
  match union s b others with
  | (s, .error e) => (s, .error e)
  | (s, .ok u) => assign { s with bounds := s.bounds.dropLast } b (.set (s.bounds[u]?.getD 0))

/-- what a program can do: the calls above, and making and changing set objects itself -/
inductive Op (S : Type) where
  | construct (a : CatArg S)
  | assign (b : Nat) (a : CatArg S)
  | union (b : Nat) (others : List (Other S))
  | update (b : Nat) (others : List (Other S))
  | newSet (l : List (Elem S))
  | mutate (i : Nat) (l : List (Elem S))

/-- the state after the call, and whether it succeeded -/
def step (s : Objs S) : Op S → Objs S × Bool
  | .construct a => match construct s a with | (s, .ok _) => (s, true) | (s, .error _) => (s, false)
  | .assign b a => match assign s b a with | (s, .ok _) => (s, true) | (s, .error _) => (s, false)
  | .union b others => match union s b others with | (s, .ok _) => (s, true) | (s, .error _) => (s, false)
  | .update b others => match update s b others with | (s, .ok _) => (s, true) | (s, .error _) => (s, false)
  | .newSet l => ({ s with sets := s.sets ++ [l] }, true)
  | .mutate i l => ({ s with sets := s.sets.set i l }, true)

/-- the arguments of a call exist -/
def Op.valid (s : Objs S) : Op S → Prop
  | .construct a => ∀ i, a = .set i → i < s.sets.length
  | .assign b a => b < s.bounds.length ∧ ∀ i, a = .set i → i < s.sets.length
  | .union b others => b < s.bounds.length ∧ ∀ c, .bounds c ∈ others → c < s.bounds.length
  | .update b others => b < s.bounds.length ∧ ∀ c, .bounds c ∈ others → c < s.bounds.length
  | .newSet _ => True
  | .mutate i _ => i < s.sets.length

/-- the states a program can get to -/
inductive Reachable : Objs S → Prop where
  | start : Reachable { sets := [], bounds := [] }
  | step {s : Objs S} (op : Op S) : Reachable s → op.valid s → Reachable (step s op).1

end Verif.SetAlias
