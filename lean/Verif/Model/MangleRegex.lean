import Verif.Model.Regex
import Verif.Model.Scaling
/-!
# The regular expressions of `gemd.units.impl` and `EmpiricalFormula`, as they are written

The models in `Model/Mangle.lean`, `Model/Scaling.lean` and `Model/Strings.lean` match by hand; here the same functions are written with the expressions
of the source and the matcher of `Model/Regex.lean`. `Props/MangleRegex.lean` proves that they agree.
-/

namespace Verif.Mangle
open Verif.Py Verif.Strings Verif.Regex

/-- `\d+` -/
def digitsRe : Re := .plus (.chr Char.isDigit)

/-- `(_\d+)?` -/
def fracRe : Re := .opt (.group 3 (.seq (.lit '_') digitsRe))

/-- `([eE]_?\d+)?` -/
def expRe : Re := .opt (.group 4 (.seq (.chr fun c => c == 'e' || c == 'E') (.seq (.opt (.lit '_')) digitsRe)))

/-- `(_(?=[a-zA-Z]))?` -/
def spaceRe : Re := .opt (.group 5 (.seq (.lit '_') (.ahead Char.isAlpha)))

/-- `\b_(_)?(\d+)(_\d+)?([eE]_?\d+)?(_(?=[a-zA-Z]))?` (units/impl.py:208) -/
def numberRe : Re := .seq .bound (.seq (.lit '_') (.seq (.opt (.group 1 (.lit '_'))) (.seq (.group 2 digitsRe) (.seq fracRe (.seq expRe spaceRe)))))

/-- `'' if match.group(n) is None else match.group(n).replace('_', by)` -/
def groupText (d : At) (n : Nat) (by' : Char) : List Char := match d.get n with
  | none => []
  | some t => replaceAll ['_'] [by'] t

/-- the replacement (units/impl.py:210-214) -/
def replacementRe (d : At) : List Char :=
  (match d.get 1 with | none => [] | some _ => ['-']) ++ (d.get 2).getD [] ++ groupText d 3 '.' ++ groupText d 4 '-' ++ groupText d 5 ' '

/-- the loop of `_unmangle_scaling` (units/impl.py:209-215), at most `fuel` rounds -/
def unmangleReFuel : Nat → List Char → Option (List Char)
  | 0, s => match numberRe.search none s with
    | none => some s
    | some _ => none
  | fuel + 1, s => match numberRe.search none s with
    | none => some s
    | some (text, d) => unmangleReFuel fuel (replaceAll text (replacementRe d) s)

/-- `_unmangle_scaling` (units/impl.py:206-216); one round per underscore is enough (`C16_terminates`) -/
def unmangleRe (s : List Char) : Option (List Char) := unmangleReFuel (underscores s) s

/-- `[+\s]+` -/
def plusSpaceRe : Re := .plus (.chr fun c => c == '+' || isSpace c)

/-- `(?<=\d)_(?=\d)` -/
def separatorRe : Re := .seq (.look fun b _ => b.any Char.isDigit) (.seq (.lit '_') (.ahead Char.isDigit))

/-- `(?<!0)(?=\.)` -/
def dotRe : Re := .seq (.look fun b _ => b != some '0') (.ahead (· == '.'))

/-- `[-.]` -/
def dashDotRe : Re := .chr fun c => c == '-' || c == '.'

/-- `stripped` (units/impl.py:169-171) -/
def stripTermRe (s : List Char) : List Char := separatorRe.sub (fun _ => []) (replaceAll ['-', '-'] [] (plusSpaceRe.sub (fun _ => []) s))

/-- `stripped_unit` (units/impl.py:174-176) -/
def stripUnitRe (s : List Char) : List Char := replaceAll ['-', '-'] [] (dotRe.insert ['0'] none (plusSpaceRe.sub (fun _ => []) s))

/-- `valid` (units/impl.py:169-186) -/
def mangleRe (term : List Char) (unit : Option (List Char × List Char)) : List Char :=
  let long := match unit with
    | some (u, longUnit) => replaceAll (stripUnitRe u) ('_' :: longUnit) (stripTermRe term)
    | none => stripTermRe term
  '_' :: dashDotRe.sub (fun _ => ['_']) long

/-- `(?<![-+0-9.])...(?![0-9.])` (units/impl.py:168) -/
def termRe (term : List Char) : Re :=
  .seq (.look fun b _ => b.all fun c => !(c == '-' || c == '+' || c.isDigit || c == '.'))
    (.seq (.text term) (.look fun _ a => a.all fun c => !(c.isDigit || c == '.')))

end Verif.Mangle

namespace Verif.Strings
open Verif.Regex

/-- `[A-Z][a-z]*` (empirical_formula.py:49) -/
def elementRe : Re := .seq (.chr fun c => 'A' ≤ c && c ≤ 'Z') (.star (.chr fun c => 'a' ≤ c && c ≤ 'z'))

end Verif.Strings
