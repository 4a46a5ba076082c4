import Verif.Py.Dict
/-!
# Model of the string-valued pieces: `InChI`, `EmpiricalFormula`, `BaseEnumeration`

Strings are lists of characters. Where the code compares the lower-cased text with the literals `1s/` and `inchi`, lower-casing is that of ASCII and of the
one other character whose lower case has a letter of these literals in it (`lowerChar`).
-/

set_option linter.unusedSectionVars false

namespace Verif.Strings
open Verif.Py

/-! ## `str.replace` -/

/-- `s.replace(pat, rep)` for a non-empty `pat`: leftmost, non-overlapping, all occurrences -/
def replaceAll (pat rep : List Char) (s : List Char) : List Char :=
  match s with
  | [] => []
  | c :: cs =>
    if pat ≠ [] ∧ pat.isPrefixOf (c :: cs) then rep ++ replaceAll pat rep ((c :: cs).drop pat.length)
    else c :: replaceAll pat rep cs
termination_by s.length
decreasing_by
  · rename_i h
    have : 0 < pat.length := List.length_pos_iff.mpr h.1
    simp only [List.length_drop, List.length_cons]; omega
  · simp

/-! ## InChI -/

/-- `str.lower` of one character, as far as it matters for the comparison with `1s/` and `inchi`. The capital I with a dot above (U+0130) becomes two
characters, `i` and a combining dot (U+0307); of all other characters outside ASCII the lower case has no ASCII letter but `k` (U+212A). -/
def lowerChar (c : Char) : List Char := if c = '\u0130' then ['i', '\u0307'] else [c.toLower]

/-- `value.lower().startswith(p)` for one of these literals (inchi_value.py:34-36) -/
def lowerStartsWith (p value : List Char) : Bool := p.isPrefixOf (value.flatMap lowerChar)

/-- argument of the setter -/
inductive StrArg where
  | none | str (s : List Char) | other

/-- `inchi` setter (inchi_value.py:28-42): (state after, outcome) -/
def setInchi (st : Option (List Char)) : StrArg → Option (List Char) × Except PyErr Unit
  | .none => (Option.none, .ok ())
  | .str value =>
    let value :=
      if lowerStartsWith ['1', 's', '/'] value then replaceAll (value.take 2) ['I', 'n', 'C', 'h', 'I', '=', '1', 'S'] value
      else if ! lowerStartsWith ['i', 'n', 'c', 'h', 'i'] value then ['I', 'n', 'C', 'h', 'I', '=', '1', 'S', '/'] ++ value
      else if ! ['I', 'n', 'C', 'h', 'I'].isPrefixOf value then replaceAll (value.take 5) ['I', 'n', 'C', 'h', 'I'] value
      else value
    (some value, .ok ())
  | .other => (st, .error .typeError)

/-! ## Empirical formulas -/

def isUpperAscii (c : Char) : Bool := 'A' ≤ c && c ≤ 'Z'
def isLowerAscii (c : Char) : Bool := 'a' ≤ c && c ≤ 'z'

/-- `re.findall('[A-Z][a-z]*', value)` (empirical_formula.py:46-49); the set is a list up to membership -/
def elements (s : List Char) : List (List Char) :=
  match s with
  | [] => []
  | c :: cs =>
    if isUpperAscii c then (c :: cs.takeWhile isLowerAscii) :: elements (cs.dropWhile isLowerAscii)
    else elements cs
termination_by s.length
decreasing_by
  · have := (List.dropWhile_suffix isLowerAscii (l := cs)).length_le
    simp only [List.length_cons]; omega
  · simp

/-- `formula` setter (empirical_formula.py:51-62), `table` being `_all_elements` -/
def setFormula (table : List (List Char)) (st : Option (List Char)) : StrArg → Option (List Char) × Except PyErr Unit
  | .none => (Option.none, .ok ())
  | .str value =>
    if (elements value).all (fun e => decide (e ∈ table)) then (some value, .ok ()) else (st, .error .valueError)
  | .other => (st, .error .typeError)

/-- `_to_bounds` (empirical_formula.py:64-75): the components; `re.findall(_, None)` raises TypeError -/
def formulaComponents : Option (List Char) → Except PyErr (List (List Char))
  | none => .error .typeError
  | some f => .ok (elements f)

/-- `_all_elements` (empirical_formula.py:10-22) -/
def allElements : List String :=
  ["H", "D", "T", "He", "Li", "Be", "B", "C", "N", "O", "F", "Ne", "Na", "Mg", "Al", "Si", "P", "S", "Cl", "Ar",
   "K", "Ca", "Sc", "Ti", "V", "Cr", "Mn", "Fe", "Co", "Ni", "Cu", "Zn", "Ga", "Ge", "As", "Se", "Br", "Kr",
   "Rb", "Sr", "Y", "Zr", "Nb", "Mo", "Tc", "Ru", "Rh", "Pd", "Ag", "Cd", "In", "Sn", "Sb", "Te", "I", "Xe",
   "Cs", "Ba", "Hf", "Ta", "W", "Re", "Os", "Ir", "Pt", "Au", "Hg", "Tl", "Pb", "Bi", "Po", "At", "Rn",
   "Fr", "Ra", "Rf", "Db", "Sg", "Bh", "Hs", "Mt", "Ds", "Rg", "Cn", "Nh", "Fl", "Mc", "Lv", "Ts", "Og",
   "La", "Ce", "Pr", "Nd", "Pm", "Sm", "Eu", "Gd", "Tb", "Dy", "Ho", "Er", "Tm", "Yb", "Lu",
   "Ac", "Th", "Pa", "U", "Np", "Pu", "Am", "Cm", "Bk", "Cf", "Es", "Fm", "Md", "No", "Lr"]

/-! ## Enumerations -/

section enumeration
variable {Str : Type} [DecidableEq Str]

/-- an enumeration member (base_enumeration.py:29-39): value and lower-cased match set -/
structure Member (Str : Type) where
  value : Str
  synonyms : List Str
  matchSet : List Str
  deriving DecidableEq

/-- Python's `str.lower` and `str.strip` -/
structure StrOps (Str : Type) where
  lower : Str → Str
  strip : Str → Str

/-- `str.lower(val).strip()` (base_enumeration.py:63) -/
def StrOps.norm (o : StrOps Str) (s : Str) : Str := o.strip (o.lower s)

/-- `next((x for x in cls if ... in x.matches), None)` (base_enumeration.py:63) -/
def findMember (o : StrOps Str) (cls : List (Member Str)) (val : Str) : Option (Member Str) :=
  cls.find? (fun x => decide (o.norm val ∈ x.matchSet))

/-- `from_str(val, exception=...)` (base_enumeration.py:41-66) -/
def fromStr (o : StrOps Str) (cls : List (Member Str)) (val : Option Str) (exception : Bool) :
    Except PyErr (Option (Member Str)) :=
  let result := match val with
    | none => none
    | some v => findMember o cls v
  if exception && result.isNone then .error .valueError else .ok result

/-- `__new__(cls, value, *synonyms)` (base_enumeration.py:29-39) for string arguments; `cls` holds the members so far -/
def newMember (o : StrOps Str) (cls : List (Member Str)) (value : Str) (synonyms : List Str) :
    Except PyErr (Member Str) :=
  match fromStr o cls (some value) false with
  | .error e => .error e
  | .ok (some _) => .error .valueError
  | .ok none => .ok { value := value, synonyms := synonyms, matchSet := o.lower value :: synonyms.map o.lower }

/-- the class statement: members are created in order -/
def mkEnum (o : StrOps Str) : List (Member Str) → List (Str × List Str) → Except PyErr (List (Member Str))
  | cls, [] => .ok cls
  | cls, (v, syn) :: rest =>
    match newMember o cls v syn with
    | .error e => .error e
    | .ok m => mkEnum o (cls ++ [m]) rest

/-- `Class(value)`: exact value first, then `_missing_` (base_enumeration.py:72-78); Enum raises ValueError for None -/
def callEnum (o : StrOps Str) (cls : List (Member Str)) (val : Str) : Except PyErr (Member Str) :=
  match cls.find? (fun x => decide (x.value = val)) with
  | some m => .ok m
  | none => match findMember o cls val with
    | some m => .ok m
    | none => .error .valueError

end enumeration
end Verif.Strings
