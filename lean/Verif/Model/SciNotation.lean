import Verif.Model.Regex
/-!
# Model of `_scientific_notation_preprocessor` (units/impl.py:47-53)
-/

namespace Verif.SciNotation
open Verif.Py Verif.Regex

/-- `\s` (ASCII) -/
def isSpace (c : Char) : Bool := c == ' ' || c == '\t' || c == '\n' || c == '\r' || c == '\x0b' || c == '\x0c'

/-- `\d+\.?\d*|\.\d+` -/
def numberRe : Re := .alt (.seq (.plus (.chr Char.isDigit)) (.seq (.opt (.lit '.')) (.star (.chr Char.isDigit))))
  (.seq (.lit '.') (.plus (.chr Char.isDigit)))

/-- `(?:(...)\s*\*\s*)?` -/
def factorRe : Re := .opt (.seq (.group 1 numberRe) (.seq (.star (.chr isSpace)) (.seq (.lit '*') (.star (.chr isSpace)))))

/-- `\*{2}|\^` -/
def powRe : Re := .alt (.seq (.lit '*') (.lit '*')) (.lit '^')

/-- `-?\d+\b` -/
def exponentRe : Re := .seq (.opt (.lit '-')) (.seq (.plus (.chr Char.isDigit)) .bound)

/-- the expression: `\b(?:(\d+\.?\d*|\.\d+)\s*\*\s*)?10\s*(?:\*{2}|\^)\s*\+?(-?\d+\b)` (units/impl.py:52) -/
def sciRe : Re := .seq .bound (.seq factorRe (.seq (.lit '1') (.seq (.lit '0') (.seq (.star (.chr isSpace)) (.seq powRe
  (.seq (.star (.chr isSpace)) (.seq (.opt (.lit '+')) (.group 2 exponentRe))))))))

/-- `_as_scientific` (units/impl.py:49-50): `f"{matchobj.group(1) or '1'}e{matchobj.group(2)}"` -/
def asScientific (d : At) : List Char :=
  (match d.get 1 with
    | some [] => ['1']
    | some g => g
    | none => ['1']) ++ 'e' :: (d.get 2).getD []

/-- `_scientific_notation_preprocessor(s)` (units/impl.py:47-53) -/
def preprocess (s : List Char) : List Char := sciRe.sub asScientific s

end Verif.SciNotation
