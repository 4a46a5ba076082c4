import Verif.Model.Mangle
/-!
# Model of `_scaling_store_and_mangle` and `_scaling_preprocessor` (gemd/units/impl.py:159-203)

`pint` is a parameter: the canonical name of a unit, the value of an expression, and the names of the definitions file. Names defined here are kept in
a dictionary that lives as long as the registry, so that a call finds the definitions of earlier calls. The value of a scaled term is that of
`parse_expression`, taken not to depend on names defined here (it mentions none of them). The short name, which `pint` only uses for display, is left out.
-/

namespace Verif.Mangle
open Verif.Py Verif.Strings

/-- `[-+0-9.]`, the characters that may not stand before a replaced term -/
def inBehind (c : Char) : Bool := c == '-' || c == '+' || c.isDigit || c == '.'

/-- `[0-9.]`, the characters that may not follow a replaced term -/
def inAhead (c : Char) : Bool := c.isDigit || c == '.'

/-- the character before, if any, satisfies the lookbehind -/
def behindOk (prev : Option Char) : Bool := match prev with | some c => !inBehind c | none => true

/-- what follows satisfies the lookahead -/
def aheadOk (s : List Char) : Bool := match s with | c :: _ => !inAhead c | [] => true

/-- the regular expression of line 168 matches here -/
def termHere (term : List Char) (prev : Option Char) (s : List Char) : Bool :=
  behindOk prev && term.isPrefixOf s && aheadOk (s.drop term.length)

/-- `re.sub(rf"(?<![-+0-9.]){re.escape(scaled_term)}(?![0-9.])", valid, input_string)` (units/impl.py:168, 191); `prev` is the character before and
`skip` is the number of characters that belong to the last match. `term` is not empty and `valid` has no backslash. -/
def subTerm (term valid : List Char) (prev : Option Char) (skip : Nat) : List Char → List Char
  | [] => []
  | c :: cs => match skip with
    | k + 1 => subTerm term valid (some c) k cs
    | 0 => if termHere term prev (c :: cs) then valid ++ subTerm term valid (some c) (term.length - 1) cs
      else c :: subTerm term valid (some c) 0 cs

/-- the parts of `pint` that are used -/
structure Pint (Q : Type) where
  /-- `f"{_REGISTRY.parse_units(unit)}"` -/
  canonical : List Char → Except PyErr (List Char)
  /-- a name of the definitions file -/
  known : List Char → Bool
  /-- `_REGISTRY.parse_expression(term)` -/
  value : List Char → Except PyErr Q

/-- names defined by `_REGISTRY.define`, with their values -/
abbrev Defs (Q : Type) := Dict (List Char) Q

/-- `valid` (units/impl.py:169-186) -/
def validName {Q : Type} (P : Pint Q) (x : Todo) : Except PyErr (List Char) := match x.unit with
  | some u => match P.canonical (stripUnit u) with
    | .ok long => .ok (mangle x.term (some (u, long)))
    | .error e => .error e
  | none => .ok (mangle x.term none)

/-- lines 187-190: define the name unless it is there -/
def define {Q : Type} (P : Pint Q) (valid term : List Char) (defs : Defs Q) : Except PyErr (Defs Q) :=
  if P.known valid || (Dict.get? defs valid).isSome then .ok defs
  else match P.value term with
    | .ok q => .ok (Dict.set defs valid q)
    | .error e => .error e

/-- `_scaling_store_and_mangle` (units/impl.py:159-193): the definitions afterwards, and the new expression -/
def storeAndMangle {Q : Type} (P : Pint Q) (defs : Defs Q) (input : List Char) : List Todo → Defs Q × Except PyErr (List Char)
  | [] => (defs, .ok input)
  | x :: xs => match validName P x with
    | .error e => (defs, .error e)
    | .ok valid => match define P valid x.term defs with
      | .error e => (defs, .error e)
      | .ok defs' => storeAndMangle P defs' (subTerm x.term valid none 0 input) xs

/-- `_scaling_preprocessor` (units/impl.py:196-203); `tokens` is what the tokenizer makes of the input -/
def scalingPreprocess {Q : Type} (P : Pint Q) (trivialFactor : List Char → Bool) (tokens : List Token) (defs : Defs Q) (input : List Char) :
    Defs Q × Except PyErr (List Char) := match scalingFactors trivialFactor input tokens with
  | .error e => (defs, .error e)
  | .ok todo => storeAndMangle P defs input todo

end Verif.Mangle
