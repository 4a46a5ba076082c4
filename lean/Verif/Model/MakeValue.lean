import Verif.Model.Attribute
import Verif.Model.Strings
/-!
# Model of `make_value` and `make_attribute` (gemd/builders/impl.py:299-370)

Strings are lists of characters. The conversions between integers and floats are given (`Floats`), and so is `parse_units`.
-/

set_option linter.unusedSectionVars false

namespace Verif.MakeValue
open Verif.Py Verif.Bounds Verif.Level Verif.Attr Verif.Strings

variable {U D α P : Type} [LinearOrder α] [DecidableEq U] [DecidableEq D]

/-- `float(n)` for an integer, which may be an OverflowError, and the integer equal to a float, if there is one -/
structure Floats (α : Type) where
  ofInt : Int → Except PyErr α
  toInt : α → Option Int

/-- What is to be wrapped. A float that is infinite or not a number is `float none`; `True` and `False` are the integers 1 and 0. For all
other objects only `str(x)` matters. -/
inductive Prim (α : Type) where
  | none
  | int (n : Int)
  | float (x : RealArg α)
  | str (s : List Char)
  | other (text : List Char)

/-- the values that `make_value` makes, with all they hold -/
inductive Made (U α : Type) where
  | nominalReal (nominal : RealArg α) (units : U)
  | nominalInteger (nominal : Int)
  | nominalCategorical (category : Option (List Char))
  | empiricalFormula (formula : Option (List Char))
  | inchi (inchi : Option (List Char))
  | smiles (smiles : Option (List Char))
  deriving DecidableEq

/-- as the bounds and the attributes see it (`Verif.Bounds.Value`) -/
def Made.value : Made U α → Value U α (List Char) P
  | .nominalReal x u => .nominalReal x u
  | .nominalInteger n => .nominalInteger n
  | .nominalCategorical c => .nominalCategorical c
  | .empiricalFormula f => .empiricalFormula (f.map elements)
  | .inchi _ => .inchi
  | .smiles _ => .smiles

/-- `NominalReal(value, units=units)` (nominal_real.py:22-26, continuous_value.py:32-42): the units are parsed first -/
def nominalReal (fl : Floats α) (parse : U → Except PyErr U) (p : Prim α) (units : U) : Except PyErr (Made U α) := match parse units with
  | .error e => .error e
  | .ok u => match p with
    | .int n => match fl.ofInt n with
      | .ok x => .ok (.nominalReal (some x) u)
      | .error e => .error e
    | .float x => .ok (.nominalReal x u)
    | _ => .error .assertionError

/-- `NominalInteger(value)` (nominal_integer.py:19-35). `int(nan)` and `int(inf)` raise too: `other`. -/
def nominalInteger (fl : Floats α) : Prim α → Except PyErr (Made U α)
  | .int n => .ok (.nominalInteger n)
  | .float none => .error .other
  | .float (some x) => match fl.toInt x with
    | some n => .ok (.nominalInteger n)
    | none => .error .typeError
  | _ => .error .typeError

/-- the argument of a setter of strings -/
def Prim.arg : Prim α → StrArg
  | .none => .none
  | .str s => .str s
  | _ => .other

/-- `NominalCategorical(value)` (nominal_categorical.py:20-34) and `Smiles(value)` (smiles_value.py:20-36) -/
def optString (make : Option (List Char) → Made U α) : Prim α → Except PyErr (Made U α)
  | .none => .ok (make none)
  | .str s => .ok (make (some s))
  | _ => .error .typeError

/-- what a setter leaves in a new object -/
def fresh (make : Option (List Char) → Made U α) : Option (List Char) × Except PyErr Unit → Except PyErr (Made U α)
  | (s, .ok _) => .ok (make s)
  | (_, .error e) => .error e

/-- `str(value)`, as far as its beginning matters: a number begins with a digit, a sign, or "inf" or "nan" -/
def Prim.text : Prim α → List Char
  | .none => ['N', 'o', 'n', 'e']
  | .str s => s
  | .other t => t
  | _ => ['0']

/-- the prefix of InChI strings -/
def inchiPrefix : List Char := ['I', 'n', 'C', 'h', 'I', '=']

/-- `make_value(value, bounds)` (builders/impl.py:336-370). `none` stands for bounds of no known class. `table` is `_all_elements`. -/
def makeValue (fl : Floats α) (parse : U → Except PyErr U) (table : List (List Char)) (p : Prim α) : Option (Bounds U α (List Char)) → Except PyErr (Made U α)
  | some (.real b) => nominalReal fl parse p b.units
  | some (.int _) => nominalInteger fl p
  | some (.cat _) => optString .nominalCategorical p
  | some (.comp _) => fresh .empiricalFormula (setFormula table none p.arg)
  | some .mol => if inchiPrefix.isPrefixOf p.text then fresh .inchi (setInchi none p.arg) else optString .smiles p
  | none => .error .valueError

/-! ## `make_attribute` -/

/-- the attribute templates and the attributes -/
inductive AKind where
  | property | condition | parameter
  deriving DecidableEq

/-- the argument `template` -/
inductive TemplateArg (U α : Type) where
  | template (k : AKind) (name : List Char) (bounds : Bounds U α (List Char))
  | other

/-- the argument `value`: a value, with all it holds if `make_value` could have made it, or something to be wrapped -/
inductive ValueArg (U α P : Type) where
  | value (v : Value U α (List Char) P)
  | prim (p : Prim α)

/-- the attribute -/
structure MadeAttr (U α P : Type) where
  kind : AKind
  name : List Char
  attr : Attr U α (List Char) P

/-- lines 325-326: the value to be used -/
def valueFor (fl : Floats α) (parse : U → Except PyErr U) (table : List (List Char)) (b : Bounds U α (List Char)) : ValueArg U α P → Except PyErr (Value U α (List Char) P)
  | .value v => .ok v
  | .prim p => match makeValue fl parse table p (some b) with
    | .ok v => .ok v.value
    | .error e => .error e

/-- `make_attribute(template, value)` (builders/impl.py:299-333), with the warnings logged -/
def makeAttribute (fl : Floats α) (parse : U → Except PyErr U) (table : List (List Char)) (us : UnitSys U D α) (level : Level) (t : TemplateArg U α)
    (v : ValueArg U α P) : Nat × Except PyErr (MadeAttr U α P) := match t with
  | .other => (0, .error .valueError)
  | .template k name b => match valueFor fl parse table b v with
    | .error e => (0, .error e)
    | .ok w => match mk us level (.value w) (.tmpl b) with
      | (n, .ok a) => (n, .ok ⟨k, name, a⟩)
      | (n, .error e) => (n, .error e)

end Verif.MakeValue
