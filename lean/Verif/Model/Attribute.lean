import Verif.Model.Bounds
import Verif.Model.Level
/-!
# Model of `gemd.entity.attribute.base_attribute` and `gemd.entity.object.has_quantities`

The validation level in force at each call is an argument. Calls return the state after the call, the number of warnings
logged, and the outcome.
-/

set_option linter.unusedSectionVars false
set_option linter.dupNamespace false

namespace Verif.Attr
open Verif.Py Verif.Bounds Verif.Level

variable {U D α S P : Type} [LinearOrder α] [DecidableEq U] [DecidableEq D] [DecidableEq S]

/-- what an attribute's `template` may hold -/
inductive Tmpl (U α S : Type) where
  | none
  | link                        -- a LinkByUID
  | tmpl (bounds : Bounds U α S)   -- an attribute template of the right class, with its bounds

/-- argument of the template setter; `other` is any object that is neither None, nor a link, nor a template of the class
this attribute wants -/
inductive TmplArg (U α S : Type) where
  | none | link | tmpl (bounds : Bounds U α S) | other

/-- argument of the value setter -/
inductive ValArg (U α S P : Type) where
  | none | value (v : Value U α S P) | other

/-- an attribute (condition, parameter or property), base_attribute.py:38-56; name, notes, origin and file links are not
modelled -/
structure Attr (U α S P : Type) where
  value : Option (Value U α S P)
  template : Tmpl U α S

/-- state after the call, warnings logged, outcome -/
abbrev Ret (σ : Type) := σ × Nat × Except PyErr Unit

/-- `accept = level == IGNORE or bounds.contains(value)` followed by warning or raising
(base_attribute.py:59-67; has_quantities.py:35-44): warnings logged and outcome -/
def check (us : UnitSys U D α) (level : Level) (b : Bounds U α S) (v : Value U α S P) : Nat × Except PyErr Unit :=
  if level = .ignore then (0, .ok ())
  else
    match contains us b (.value v) with
    | .error e => (0, .error e)
    | .ok true => (0, .ok ())
    | .ok false => if level = .warning then (1, .ok ()) else (0, .error .valueError)

/-- `value` setter (base_attribute.py:74-84). `_check` of a link template evaluates `template.bounds`, an AttributeError,
unless the level is IGNORE (then `or` short-circuits). -/
def setValue (us : UnitSys U D α) (level : Level) (s : Attr U α S P) : ValArg U α S P → Ret (Attr U α S P)
  | .none => ({ s with value := none }, 0, .ok ())
  | .other => (s, 0, .error .typeError)
  | .value v =>
    match s.template with
    | .none => ({ s with value := some v }, 0, .ok ())
    | .link => if level = .ignore then ({ s with value := some v }, 0, .ok ()) else (s, 0, .error .attributeError)
    | .tmpl b =>
      match check us level b v with
      | (n, .ok ()) => ({ s with value := some v }, n, .ok ())
      | (n, .error e) => (s, n, .error e)

/-- `template` setter (base_attribute.py:91-102) -/
def setTemplate (us : UnitSys U D α) (level : Level) (s : Attr U α S P) : TmplArg U α S → Ret (Attr U α S P)
  | .none => ({ s with template := .none }, 0, .ok ())
  | .other => (s, 0, .error .typeError)
  | .link => ({ s with template := .link }, 0, .ok ())
  | .tmpl b =>
    match s.value with
    | none => ({ s with template := .tmpl b }, 0, .ok ())
    | some v =>
      match check us level b v with
      | (n, .ok ()) => ({ s with template := .tmpl b }, n, .ok ())
      | (n, .error e) => (s, n, .error e)

/-- the constructor (base_attribute.py:45-54): value first, then template -/
def mk (us : UnitSys U D α) (level : Level) (v : ValArg U α S P) (t : TmplArg U α S) : Nat × Except PyErr (Attr U α S P) :=
  match setValue us level { value := none, template := .none } v with
  | (_, n, .error e) => (n, .error e)
  | (s, n, .ok ()) =>
    match setTemplate us level s t with
    | (_, m, .error e) => (n + m, .error e)
    | (s', m, .ok ()) => (n + m, .ok s')

/-- an assignment to an attribute -/
inductive Op (U α S P : Type) where
  | value (a : ValArg U α S P)
  | template (a : TmplArg U α S)

def step (us : UnitSys U D α) (level : Level) (s : Attr U α S P) : Op U α S P → Ret (Attr U α S P)
  | .value a => setValue us level s a
  | .template a => setTemplate us level s a

/-- a history of assignments, each at its own level; exceptions are caught by the caller -/
def run (us : UnitSys U D α) (s : Attr U α S P) : List (Level × Op U α S P) → Attr U α S P
  | [] => s
  | (l, op) :: ops => run us (step us l s op).1 ops

/-! ## Quantities -/

/-- `isinstance(x, ContinuousValue)`: the three real values -/
def isContinuous : Value U α S P → Bool
  | .nominalReal .. => true
  | .normalReal .. => true
  | .uniformReal .. => true
  | _ => false

/-- `absolute_quantity.units` of a continuous value -/
def unitsOf : Value U α S P → Option U
  | .nominalReal _ u => some u
  | .normalReal _ _ u => some u
  | .uniformReal _ _ u => some u
  | _ => none

/-- numbers and units named in has_quantities.py: 0.0, 1.0, `sys.float_info.max`, and the unit `''` -/
structure Consts (U α : Type) where
  zero : α
  one : α
  max : α
  unitless : U

/-- one of the three fraction setters (has_quantities.py:51-89, identical up to the field), with `_check` (34-44) -/
def setFraction (us : UnitSys U D α) (k : Consts U α) (level : Level) (s : Option (Value U α S P)) :
    ValArg U α S P → Ret (Option (Value U α S P))
  | .none => (none, 0, .ok ())
  | .other => (s, 0, .error .typeError)
  | .value v =>
    if isContinuous v then
      -- RealBounds(0.0, 1.0, '') is built first, whatever the level
      match mkReal (some k.zero) (some k.one) k.unitless with
      | .error e => (s, 0, .error e)
      | .ok fractionBounds =>
        match check us level (.real fractionBounds) v with
        | (n, .ok ()) => (some v, n, .ok ())
        | (n, .error e) => (s, n, .error e)
    else (s, 0, .error .typeError)

/-- `absolute_quantity` setter (has_quantities.py:96-125). At any level but IGNORE and WARNING the setter raises,
whether or not there are messages (line 124). -/
def setAbsolute (us : UnitSys U D α) (k : Consts U α) (level : Level) (s : Option (Value U α S P)) :
    ValArg U α S P → Ret (Option (Value U α S P))
  | .none => (none, 0, .ok ())
  | .other => (s, 0, .error .typeError)
  | .value v =>
    match isContinuous v, unitsOf v with
    | true, some u =>
      match mkReal (some k.zero) (some k.max) u, mkReal (some k.zero) (some k.max) k.unitless with
      | .ok maxBounds, .ok dimensionless =>
        if level ≠ .ignore then
          match contains us (.real maxBounds) (.value v) with
          | .error e => (s, 0, .error e)
          | .ok inMax =>
            match contains us (.real dimensionless) (.value v) with
            | .error e => (s, 0, .error e)
            | .ok inDim =>
              let messages := (if inMax then 0 else 1) + (if inDim then 1 else 0)
              if level = .warning then (some v, messages, .ok ()) else (s, 0, .error .valueError)
        else (some v, 0, .ok ())
      | .error e, _ => (s, 0, .error e)
      | _, .error e => (s, 0, .error e)
    | _, _ => (s, 0, .error .typeError)

end Verif.Attr
