import Mathlib.Order.Defs.LinearOrder
import Verif.Py.Dict
/-!
# Model of `gemd.entity.bounds.*`, of `_to_bounds` in `gemd.entity.value.*`, and of `gemd.units.convert_units`

Real magnitudes are elements of an arbitrary linear order `α` (exact arithmetic; the `float(...)` casts of the
setters are the identity here). Strings (categories, components) are elements of a type `S`; units of a type `U`.
Integers are exact, and `float(int)` is modelled exactly (IEEE binary64).
-/

set_option linter.unusedSectionVars false

set_option linter.dupNamespace false

namespace Verif.Bounds
open Verif.Py

/-! ## Units -/

/-- What the code uses of a unit registry (units/impl.py:260-296): each unit has root units, and magnitudes convert to
and from magnitudes in the root units. `pint` itself (parser, registry, dimensional analysis) is not modelled. -/
structure UnitSys (U D α : Type) where
  root : U → D
  toRoot : U → α → α
  ofRoot : U → α → α

/-- The conversions of every unit are order isomorphisms. This holds of scaled and offset units with positive scale and of
logarithmic units, in exact arithmetic. -/
structure UnitSys.Lawful {U D α : Type} [LinearOrder α] (us : UnitSys U D α) : Prop where
  of_to : ∀ u x, us.ofRoot u (us.toRoot u x) = x
  to_of : ∀ u x, us.toRoot u (us.ofRoot u x) = x
  mono : ∀ u x y, x ≤ y → us.toRoot u x ≤ us.toRoot u y

variable {U D α S P : Type} [LinearOrder α] [DecidableEq U] [DecidableEq D] [DecidableEq S]

/-- `convert_units(value, starting_unit, final_unit)` (units/impl.py:260-296) for parsed units. -/
def convertUnits (us : UnitSys U D α) (x : α) (u v : U) : Except PyErr α :=
  if u = v then .ok x
  else if us.root u ≠ us.root v then .error .incompatibleUnits
  else .ok (us.ofRoot v (us.toRoot u x))

/-! ## `float(int)` -/

/-- binary64 rounding of a natural number (53 significant bits, ties to even) -/
def roundNat (n : Nat) : Nat :=
  if n < 2 ^ 53 then n
  else
    let s := Nat.log2 n - 52
    let q := n / 2 ^ s
    let r := n % 2 ^ s
    let q' := if 2 ^ (s - 1) < r ∨ (r = 2 ^ (s - 1) ∧ q % 2 = 1) then q + 1 else q
    q' * 2 ^ s

/-- `float(n)` as an exact integer, or `none` for OverflowError -/
@[irreducible] def floatOfInt (n : Int) : Option Int :=
  let m := roundNat n.natAbs
  if m < 2 ^ 1024 then some (n.sign * m) else none

/-! ## Objects -/

/-- `RealBounds` (real_bounds.py:14-33) once constructed -/
structure RealB (U α : Type) where
  lower : α
  upper : α
  units : U
  deriving DecidableEq

/-- `IntegerBounds` (integer_bounds.py:13-30) once constructed -/
structure IntB where
  lower : Int
  upper : Int
  deriving DecidableEq, Repr

/-- a bounds object; sets of strings are lists up to membership -/
inductive Bounds (U α S : Type) where
  | real (b : RealB U α)
  | int (b : IntB)
  | cat (categories : List S)
  | comp (components : List S)
  | mol
  deriving DecidableEq

/-- a numeric argument of a real setter: None or not finite (`none`), or a finite number -/
abbrev RealArg (α : Type) := Option α

/-- partially constructed `RealBounds` (real_bounds.py:26-33) -/
structure RealRaw (U α : Type) where
  units : Option U
  lower : Option α
  upper : Option α
  deriving DecidableEq

/-- a units argument: None, unparsable, or parsed (real_bounds.py:75-81) -/
inductive UnitArg (U : Type) where
  | none | bad | unit (u : U)

/-- `default_units` setter (real_bounds.py:75-81) -/
def RealRaw.setUnits (s : RealRaw U α) : UnitArg U → RealRaw U α × Except PyErr Unit
  | .none => (s, .error .valueError)
  | .bad => (s, .error .undefinedUnit)
  | .unit u => ({ s with units := some u }, .ok ())

/-- `lower_bound` setter (real_bounds.py:40-48) -/
def RealRaw.setLower (s : RealRaw U α) (v : RealArg α) : RealRaw U α × Except PyErr Unit :=
  match v with
  | none => (s, .error .valueError)
  | some x =>
    match s.upper with
    | some u => if x > u then (s, .error .valueError) else ({ s with lower := some x }, .ok ())
    | none => ({ s with lower := some x }, .ok ())

/-- `upper_bound` setter (real_bounds.py:55-63) -/
def RealRaw.setUpper (s : RealRaw U α) (v : RealArg α) : RealRaw U α × Except PyErr Unit :=
  match v with
  | none => (s, .error .valueError)
  | some x =>
    match s.lower with
    | some l => if x < l then (s, .error .valueError) else ({ s with upper := some x }, .ok ())
    | none => ({ s with upper := some x }, .ok ())

/-- `RealBounds(lower_bound, upper_bound, default_units)` (real_bounds.py:26-33): the three setters in order. -/
def RealRaw.init (lo hi : RealArg α) (u : UnitArg U) : Except PyErr (RealRaw U α) :=
  let s0 : RealRaw U α := { units := none, lower := none, upper := none }
  match s0.setUnits u with
  | (_, .error e) => .error e
  | (s1, .ok ()) =>
    match s1.setLower lo with
    | (_, .error e) => .error e
    | (s2, .ok ()) =>
      match s2.setUpper hi with
      | (_, .error e) => .error e
      | (s3, .ok ()) => .ok s3

/-- a fully constructed raw object seen as a value -/
def RealRaw.get? (s : RealRaw U α) : Option (RealB U α) :=
  match s.lower, s.upper, s.units with
  | some l, some h, some u => some { lower := l, upper := h, units := u }
  | _, _, _ => none

/-- `RealBounds(...)` for numeric arguments and parsed units, as a value -/
def mkReal (lo hi : RealArg α) (u : U) : Except PyErr (RealB U α) :=
  match RealRaw.init lo hi (.unit u) with
  | .error e => .error e
  | .ok s => match s.get? with
    | some b => .ok b
    | none => .error .other

/-- a numeric argument of an integer setter -/
inductive NumArg where
  | none | nonFinite | int (n : Int) | float (q : Rat)

/-- partially constructed `IntegerBounds` (integer_bounds.py:25-30) -/
structure IntRaw where
  lower : Option Int
  upper : Option Int
  deriving DecidableEq, Repr

/-- `value is None or not isfinite(value) or int(value) != float(value)` and `int(value)`
(integer_bounds.py:40-41, 46, 54-55, 60). `isfinite` of a huge int raises OverflowError. -/
def NumArg.check : NumArg → Except PyErr Int
  | .none => .error .valueError
  | .nonFinite => .error .valueError
  | .int n =>
    match floatOfInt n with
    | Option.none => .error .other
    | some m => if n ≠ m then .error .valueError else .ok n
  | .float q => if q.den ≠ 1 then .error .valueError else .ok q.num

/-- `lower_bound` setter (integer_bounds.py:37-46) -/
def IntRaw.setLower (s : IntRaw) (v : NumArg) : IntRaw × Except PyErr Unit :=
  match v.check with
  | .error e => (s, .error e)
  | .ok n =>
    match s.upper with
    | some u => if n > u then (s, .error .valueError) else ({ s with lower := some n }, .ok ())
    | none => ({ s with lower := some n }, .ok ())

/-- `upper_bound` setter (integer_bounds.py:51-60) -/
def IntRaw.setUpper (s : IntRaw) (v : NumArg) : IntRaw × Except PyErr Unit :=
  match v.check with
  | .error e => (s, .error e)
  | .ok n =>
    match s.lower with
    | some l => if n < l then (s, .error .valueError) else ({ s with upper := some n }, .ok ())
    | none => ({ s with upper := some n }, .ok ())

/-- `IntegerBounds(lower_bound, upper_bound)` (integer_bounds.py:25-30) -/
def IntRaw.init (lo hi : NumArg) : Except PyErr IntRaw :=
  match ({ lower := none, upper := none } : IntRaw).setLower lo with
  | (_, .error e) => .error e
  | (s1, .ok ()) =>
    match s1.setUpper hi with
    | (_, .error e) => .error e
    | (s2, .ok ()) => .ok s2

def IntRaw.get? (s : IntRaw) : Option IntB :=
  match s.lower, s.upper with
  | some l, some h => some { lower := l, upper := h }
  | _, _ => none

/-- `IntegerBounds(lo, hi)` for int arguments, as a value -/
def mkInt (lo hi : Int) : Except PyErr IntB :=
  match IntRaw.init (.int lo) (.int hi) with
  | .error e => .error e
  | .ok s => match s.get? with
    | some b => .ok b
    | none => .error .other

/-- an element offered as category: a string or something else -/
inductive Elem (S : Type) where
  | str (s : S) | nonStr
  deriving DecidableEq

def Elem.isStr : Elem S → Bool
  | .str _ => true
  | .nonStr => false

/-- an argument of the categories/components setter -/
inductive SetArg (S : Type) where
  | none
  | collection (l : List (Elem S))   -- list, tuple, array-like or set
  | other

/-- `categories` setter (categorical_bounds.py:32-44), `components` setter (composition_bounds.py:33-46). The object's set is
*stored first and validated afterwards*. Aliasing of a passed set object is not modelled here, see `Verif.Model.SetAlias`. -/
def setCategories (s : List (Elem S)) : SetArg S → List (Elem S) × Except PyErr Unit
  | .none => ([], .ok ())
  | .collection l => if l.all Elem.isStr then (l, .ok ()) else (l, .error .valueError)
  | .other => (s, .error .valueError)

/-- `CategoricalBounds(...)` / `CompositionBounds(...)` (categorical_bounds.py:23-25, composition_bounds.py:24-26) -/
def mkCategories (a : SetArg S) : Except PyErr (List (Elem S)) :=
  match setCategories [] a with
  | (s, .ok ()) => .ok s
  | (_, .error e) => .error e

/-- the strings among the elements -/
def strings (l : List (Elem S)) : List S :=
  l.filterMap (fun | .str s => some s | .nonStr => Option.none)

/-! ## Values -/

/-- a value object (entity/value/*.py); `P` is the type of probabilities and amounts. -/
inductive Value (U α S P : Type) where
  | nominalReal (nominal : RealArg α) (units : U)
  | normalReal (mean : RealArg α) (std : RealArg α) (units : U)
  | uniformReal (lower upper : RealArg α) (units : U)
  | nominalInteger (n : Int)
  | uniformInteger (lower upper : Int)
  | nominalCategorical (category : Option S)
  | discreteCategorical (probabilities : Option (List (S × P)))
  | nominalComposition (quantities : List (S × P))
  | empiricalFormula (elements : Option (List S))   -- the element tokens of the formula; see `Verif.Model.Strings`
  | smiles
  | inchi

/-- `_to_bounds` of every value class: nominal_real.py:30-41, normal_real.py:31-42, uniform_real.py:39-50,
nominal_integer.py:37-48, uniform_integer.py:65-76, nominal_categorical.py:36-47, discrete_categorical.py:51-62,
nominal_composition.py:47-58, empirical_formula.py:64-75, smiles_value.py:38-49, inchi_value.py:44-55.
A NominalCategorical without category gives `{None}`, which the setter refuses (ValueError);
`set(None)` and `re.findall(..., None)` raise TypeError. -/
def toBounds : Value U α S P → Except PyErr (Bounds U α S)
  | .nominalReal x u => (mkReal x x u).map .real
  | .normalReal m _ u => (mkReal m m u).map .real
  | .uniformReal l h u => (mkReal l h u).map .real
  | .nominalInteger n => (mkInt n n).map .int
  | .uniformInteger l h => (mkInt l h).map .int
  | .nominalCategorical (some c) => (mkCategories (.collection [.str c])).map (fun l => .cat (strings l))
  | .nominalCategorical none => (mkCategories (.collection [(.nonStr : Elem S)])).map (fun l => .cat (strings l))
  | .discreteCategorical (some p) =>
    (mkCategories (.collection (p.map (fun e => Elem.str e.1)))).map (fun l => .cat (strings l))
  | .discreteCategorical none => .error .typeError
  | .nominalComposition q =>
    (mkCategories (.collection (q.map (fun e => Elem.str e.1)))).map (fun l => .comp (strings l))
  | .empiricalFormula (some es) =>
    (mkCategories (.collection (es.map Elem.str))).map (fun l => .comp (strings l))
  | .empiricalFormula none => .error .typeError
  | .smiles => .ok .mol
  | .inchi => .ok .mol

/-- an argument of `contains`, `union`, `update` -/
inductive Arg (U α S P : Type) where
  | none
  | bounds (b : Bounds U α S)
  | value (v : Value U α S P)
  | other

/-! ## contains -/

/-- `RealBounds._convert_bounds(target)` (real_bounds.py:182-204) -/
def RealB.convert (us : UnitSys U D α) (b : RealB U α) (target : U) : Option (α × α) :=
  match convertUnits us b.lower b.units target, convertUnits us b.upper b.units target with
  | .ok l, .ok h => some (l, h)
  | _, _ => none

/-- the class-specific part of `contains` on two bounds: real_bounds.py:109-118, integer_bounds.py:88-91,
categorical_bounds.py:73-76, composition_bounds.py:74-77, molecular_structure_bounds.py:45-48 -/
def containsB (us : UnitSys U D α) : Bounds U α S → Bounds U α S → Bool
  | .real a, .real b =>
    match a.convert us b.units with
    | none => false
    | some (lower, upper) => decide (b.lower ≥ lower) && decide (b.upper ≤ upper)
  | .int a, .int b => decide (b.lower ≥ a.lower) && decide (b.upper ≤ a.upper)
  | .cat a, .cat b => b.all (fun s => decide (s ∈ a))
  | .comp a, .comp b => b.all (fun s => decide (s ∈ a))
  | .mol, .mol => true
  | _, _ => false

/-- `BaseBounds.contains` (base_bounds.py:15-41), called first by every override -/
def baseContains : Arg U α S P → Except PyErr Bool
  | .none => .ok false
  | .value v => match toBounds v with
    | .error e => .error e
    | .ok _ => .ok true
  | .bounds _ => .ok true
  | .other => .error .typeError

/-- `contains` (real_bounds.py:83-118 and the four siblings) -/
def contains (us : UnitSys U D α) (self : Bounds U α S) (arg : Arg U α S P) : Except PyErr Bool :=
  match baseContains arg with
  | .error e => .error e
  | .ok false => .ok false
  | .ok true =>
    match arg with
    | .value v => match toBounds v with
      | .error e => .error e
      | .ok b => .ok (containsB us self b)
    | .bounds b => .ok (containsB us self b)
    | _ => .error .typeError

/-! ## union and update -/

/-- which arguments `union` of a given receiver admits (the isinstance test at the head of each `union`) -/
def admits : Bounds U α S → Arg U α S P → Bool
  | .real _, .bounds (.real _) => true
  | .real _, .value (.nominalReal ..) => true
  | .real _, .value (.normalReal ..) => true
  | .real _, .value (.uniformReal ..) => true
  | .int _, .bounds (.int _) => true
  | .int _, .value (.nominalInteger ..) => true
  | .int _, .value (.uniformInteger ..) => true
  | .cat _, .bounds (.cat _) => true
  | .cat _, .value (.nominalCategorical ..) => true
  | .cat _, .value (.discreteCategorical ..) => true
  | .comp _, .bounds (.comp _) => true
  | .comp _, .value (.nominalComposition ..) => true
  | .comp _, .value (.empiricalFormula ..) => true
  | .mol, .bounds .mol => true
  | .mol, .value .smiles => true
  | .mol, .value .inchi => true
  | _, _ => false

/-- `if isinstance(bounds, XValue): bounds = bounds._to_bounds()` -/
def resolve : Arg U α S P → Except PyErr (Bounds U α S)
  | .bounds b => .ok b
  | .value v => toBounds v
  | _ => .error .typeError

/-- loop of `RealBounds.union` (real_bounds.py:149-160): accumulate (lower, upper) in the receiver's units -/
def unionRealLoop (us : UnitSys U D α) (unit : U) : α × α → List (Arg U α S P) → Except PyErr (α × α)
  | acc, [] => .ok acc
  | (lower, upper), a :: rest =>
    match resolve a with
    | .error e => .error e
    | .ok (.real b) =>
      match b.convert us unit with
      | none => .error .incompatibleUnits
      | some (lo, hi) =>
        unionRealLoop us unit (if lo < lower then lo else lower, if hi > upper then hi else upper) rest
    | .ok _ => .error .attributeError

/-- loop of `IntegerBounds.union` (integer_bounds.py:121-129) -/
def unionIntLoop : Int × Int → List (Arg U α S P) → Except PyErr (Int × Int)
  | acc, [] => .ok acc
  | (lower, upper), a :: rest =>
    match resolve a with
    | .error e => .error e
    | .ok (.int b) =>
      unionIntLoop (if b.lower < lower then b.lower else lower, if b.upper > upper then b.upper else upper) rest
    | .ok _ => .error .attributeError

/-- `set.update` -/
def setUnion (a b : List S) : List S := a ++ b.filter (fun s => decide (s ∉ a))

/-- loop of the categorical and composition unions (categorical_bounds.py:107-112, composition_bounds.py:108-113) -/
def unionSetLoop (pick : Bounds U α S → Option (List S)) : List S → List (Arg U α S P) → Except PyErr (List S)
  | acc, [] => .ok acc
  | acc, a :: rest =>
    match resolve a with
    | .error e => .error e
    | .ok b => match pick b with
      | some l => unionSetLoop pick (setUnion acc l) rest
      | none => .error .attributeError

def pickCat : Bounds U α S → Option (List S)
  | .cat l => some l
  | _ => none

def pickComp : Bounds U α S → Option (List S)
  | .comp l => some l
  | _ => none

/-- `union(*others)`: real_bounds.py:120-161, integer_bounds.py:93-130, categorical_bounds.py:78-112,
composition_bounds.py:79-113, molecular_structure_bounds.py:50-79 -/
def union (us : UnitSys U D α) (self : Bounds U α S) (others : List (Arg U α S P)) :
    Except PyErr (Bounds U α S) :=
  if others.any (fun x => !(admits self x)) then .error .typeError
  else
    match self with
    | .real a =>
      match unionRealLoop us a.units (a.lower, a.upper) others with
      | .error e => .error e
      | .ok (l, h) => (mkReal (some l) (some h) a.units).map .real
    | .int a =>
      match unionIntLoop (a.lower, a.upper) others with
      | .error e => .error e
      | .ok (l, h) => (mkInt l h).map .int
    | .cat a => (unionSetLoop pickCat a others).map .cat
    | .comp a => (unionSetLoop pickComp a others).map .comp
    | .mol => .ok .mol

/-- the object state reached when a setter sequence stops at the first failing setter -/
def thenDo {St : Type} (r : St × Except PyErr Unit) (f : St → St × Except PyErr Unit) : St × Except PyErr Unit :=
  match r with
  | (s, .ok ()) => f s
  | (s, .error e) => (s, .error e)

/-- `update(*others)` on a constructed object (real_bounds.py:163-180, integer_bounds.py:132-148, categorical_bounds.py:114-128,
composition_bounds.py:115-129, molecular_structure_bounds.py:81-95): the union, then the setters one by one. The molecular
`update` does nothing and checks nothing. -/
def update (us : UnitSys U D α) (self : Bounds U α S) (others : List (Arg U α S P)) :
    Bounds U α S × Except PyErr Unit :=
  match self with
  | .mol => (.mol, .ok ())
  | self =>
    match union us self others with
    | .error e => (self, .error e)
    | .ok r =>
      match self, r with
      | .real a, .real b =>
        let s0 : RealRaw U α := { units := some a.units, lower := some a.lower, upper := some a.upper }
        let (s, o) := thenDo (thenDo (s0.setLower (some b.lower)) (·.setUpper (some b.upper)))
                        (·.setUnits (.unit b.units))
        match s.get? with
        | some c => (.real c, o)
        | none => (.real a, .error .other)
      | .int a, .int b =>
        let s0 : IntRaw := { lower := some a.lower, upper := some a.upper }
        let (s, o) := thenDo (s0.setLower (.int b.lower)) (·.setUpper (.int b.upper))
        match s.get? with
        | some c => (.int c, o)
        | none => (.int a, .error .other)
      | .cat a, .cat b =>
        let (s, o) := setCategories (a.map Elem.str) (.collection (b.map Elem.str))
        (.cat (strings s), o)
      | .comp a, .comp b =>
        let (s, o) := setCategories (a.map Elem.str) (.collection (b.map Elem.str))
        (.comp (strings s), o)
      | self, _ => (self, .error .other)

/-! ## Histories -/

/-- what a user can do to a bounds object -/
inductive Op (U α S P : Type) where
  | setLower (v : RealArg α) | setUpper (v : RealArg α) | setUnits (u : UnitArg U)
  | setLowerInt (v : NumArg) | setUpperInt (v : NumArg)
  | update (others : List (Arg U α S P))

def rawReal (b : RealB U α) : RealRaw U α := { units := some b.units, lower := some b.lower, upper := some b.upper }
def rawInt (b : IntB) : IntRaw := { lower := some b.lower, upper := some b.upper }

/-- result of a setter on a constructed real bounds -/
def backReal (b : RealB U α) (r : RealRaw U α × Except PyErr Unit) : Bounds U α S × Except PyErr Unit :=
  match r.1.get? with
  | some c => (.real c, r.2)
  | none => (.real b, .error .other)

def backInt (b : IntB) (r : IntRaw × Except PyErr Unit) : Bounds U α S × Except PyErr Unit :=
  match r.1.get? with
  | some c => (.int c, r.2)
  | none => (.int b, .error .other)

/-- one operation: the setters of real_bounds.py:40-81 and integer_bounds.py:37-60, or `update`. Setters that a class does
not have are reported as AttributeError (Python would create an unrelated attribute). -/
def step (us : UnitSys U D α) (self : Bounds U α S) : Op U α S P → Bounds U α S × Except PyErr Unit
  | .update others => update us self others
  | .setLower v => match self with
    | .real b => backReal b ((rawReal b).setLower v)
    | s => (s, .error .attributeError)
  | .setUpper v => match self with
    | .real b => backReal b ((rawReal b).setUpper v)
    | s => (s, .error .attributeError)
  | .setUnits v => match self with
    | .real b => backReal b ((rawReal b).setUnits v)
    | s => (s, .error .attributeError)
  | .setLowerInt v => match self with
    | .int b => backInt b ((rawInt b).setLower v)
    | s => (s, .error .attributeError)
  | .setUpperInt v => match self with
    | .int b => backInt b ((rawInt b).setUpper v)
    | s => (s, .error .attributeError)

/-- a history, including failing operations -/
def run (us : UnitSys U D α) (self : Bounds U α S) (ops : List (Op U α S P)) : Bounds U α S :=
  ops.foldl (fun s o => (step us s o).1) self

end Verif.Bounds
