import Verif.Py.Dict
/-!
# Model of the distribution-valued classes `UniformInteger`, `DiscreteCategorical`, `UniformReal`, `NominalInteger`
-/

set_option linter.unusedSectionVars false

namespace Verif.Dist
open Verif.Py

/-- what a caller may pass as an integer -/
inductive NumArg where
  | notNumber | nan | infinite | int (n : Int) | float (q : Rat)

/-- `not isinstance(x, (int, float)) or int(x) != x` → TypeError; `int(nan)` ValueError; `int(inf)` OverflowError
(uniform_integer.py:37, 56; nominal_integer.py:32) -/
def NumArg.toInt : NumArg → Except PyErr Int
  | .notNumber => .error .typeError
  | .nan => .error .valueError
  | .infinite => .error .other
  | .int n => .ok n
  | .float q => if q.den = 1 then .ok q.num else .error .typeError

/-- `UniformInteger` state -/
structure UInt where
  lower : Option Int
  upper : Option Int
  deriving DecidableEq, Repr

/-- `lower_bound` setter (uniform_integer.py:33-46) -/
def UInt.setLower (s : UInt) (v : NumArg) : UInt × Except PyErr Unit :=
  match v.toInt with
  | .error e => (s, .error e)
  | .ok n =>
    match s.upper with
    | some u => if n > u then (s, .error .valueError) else ({ s with lower := some n }, .ok ())
    | none => ({ s with lower := some n }, .ok ())

/-- `upper_bound` setter (uniform_integer.py:53-64); `int(None)` raises TypeError when lower is unset -/
def UInt.setUpper (s : UInt) (v : NumArg) : UInt × Except PyErr Unit :=
  match v.toInt with
  | .error e => (s, .error e)
  | .ok n =>
    match s.lower with
    | none => (s, .error .typeError)
    | some l => if l > n then (s, .error .valueError) else ({ s with upper := some n }, .ok ())

/-- `UniformInteger(lower, upper)` (uniform_integer.py:21-26) -/
def UInt.init (lo hi : NumArg) : Except PyErr UInt :=
  match ({ lower := none, upper := none } : UInt).setLower lo with
  | (_, .error e) => .error e
  | (s1, .ok ()) =>
    match s1.setUpper hi with
    | (_, .error e) => .error e
    | (s2, .ok ()) => .ok s2

inductive UOp where
  | lower (v : NumArg) | upper (v : NumArg)

def UInt.step (s : UInt) : UOp → UInt × Except PyErr Unit
  | .lower v => s.setLower v
  | .upper v => s.setUpper v

def UInt.run (s : UInt) (ops : List UOp) : UInt := ops.foldl (fun s o => (s.step o).1) s

/-- argument of the `probabilities` setter; a dictionary key is a string or not -/
inductive ProbArg (Str : Type) where
  | none
  | str (s : Str)
  | dict (d : List (Option Str × Rat))
  | other

/-- `validate_str` on every key -/
def strKeys {Str : Type} : List (Option Str × Rat) → Except PyErr (List (Str × Rat))
  | [] => .ok []
  | (none, _) :: _ => .error .typeError
  | (some k, v) :: rest =>
    match strKeys rest with
    | .ok r => .ok ((k, v) :: r)
    | .error e => .error e

/-- `abs(sum - 1.0) > 1.0e-9` in exact arithmetic -/
def sumOff (vals : List Rat) : Bool :=
  let d := vals.sum - 1
  decide ((if d < 0 then -d else d) > 1 / 1000000000)

/-- `probabilities` setter (discrete_categorical.py:37-49): (state after, outcome). Probabilities are exact rationals. -/
def setProbabilities {Str : Type} (st : Option (List (Str × Rat))) :
    ProbArg Str → Option (List (Str × Rat)) × Except PyErr Unit
  | .none => (Option.none, .ok ())
  | .str s => (some [(s, 1)], .ok ())
  | .dict d =>
    if sumOff (d.map Prod.snd) then (st, .error .valueError)
    else match strKeys d with
      | .ok r => (some r, .ok ())
      | .error e => (st, .error e)
  | .other => (st, .error .typeError)

/-- `UniformReal` keeps plain attributes (uniform_real.py:30-36) -/
structure UReal where
  lower : Option Rat
  upper : Option Rat
  deriving DecidableEq

/-- `UniformReal(lower, upper, units)` (uniform_real.py:30-36): comparing None raises TypeError -/
def UReal.init (lo hi : Option Rat) : Except PyErr UReal :=
  match lo, hi with
  | some l, some h => if l ≤ h then .ok { lower := lo, upper := hi } else .error .assertionError
  | _, _ => .error .typeError

/-- plain attribute assignment -/
def UReal.setLower (s : UReal) (v : Option Rat) : UReal := { s with lower := v }
def UReal.setUpper (s : UReal) (v : Option Rat) : UReal := { s with upper := v }

end Verif.Dist
