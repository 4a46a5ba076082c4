import Verif.Model.Strings
import Verif.Model.Regex
/-!
# Formulas as text in the Strehlow & Cook demo

`formula_clean` and `formula_latex` (demo/strehlow_and_cook.py:72-81). The two regular expressions are followed by hand,
and written with the matcher of `Model/Regex.lean` (`C70_expressions` proves that they agree); `digit` is `\d`, which is true of decimal digits of
every script.
-/

namespace Verif.Markup
open Verif.Strings

/-- `[A-Za-z]` -/
def letter (c : Char) : Bool := isUpperAscii c || isLowerAscii c

/-- `(?=[A-Za-z]|$)`: a letter, the end, or a newline that is the end -/
def ahead : List Char → Bool
  | [] => true
  | c :: cs => letter c || (decide (c = '\n') && cs.isEmpty)

/-- `(?<=[A-Za-z])`, given the character before -/
def behind : Option Char → Bool
  | some c => letter c
  | none => false

/-- `re.sub(r"(?<=[A-Za-z])1(?=[A-Za-z]|$)", '', old)` from a position on (strehlow_and_cook.py:78-81) -/
def cleanFrom : Option Char → List Char → List Char
  | _, [] => []
  | prev, c :: cs => if c = '1' ∧ behind prev = true ∧ ahead cs = true then cleanFrom (some c) cs else c :: cleanFrom (some c) cs

/-- `formula_clean(old)` -/
def clean (s : List Char) : List Char := cleanFrom none s

/-- `[\d.]` -/
def amountChar (digit : Char → Bool) (c : Char) : Bool := digit c || decide (c = '.')

/-- `re.sub(r"(?<=[A-Za-z])([\d.]+)(?=[A-Za-z]|$)", r"$_{\1}$", old)` from a position on (strehlow_and_cook.py:72-75). The run of digits and dots is as long as possible; a
shorter one is followed by a digit or a dot, so trying it again is of no use. -/
def latexFrom (digit : Char → Bool) : Option Char → List Char → List Char
  | _, [] => []
  | prev, c :: cs =>
    if behind prev = true ∧ amountChar digit c = true ∧ ahead (cs.dropWhile (amountChar digit)) = true then
      "$_{".toList ++ c :: cs.takeWhile (amountChar digit) ++ "}$".toList ++
        latexFrom digit ((c :: cs.takeWhile (amountChar digit)).getLast?) (cs.dropWhile (amountChar digit))
    else c :: latexFrom digit (some c) cs
termination_by _ s => s.length
decreasing_by
  · have := (List.dropWhile_suffix (amountChar digit) (l := cs)).length_le
    simp only [List.length_cons]; omega
  · simp

/-- `formula_latex(old)` -/
def latex (digit : Char → Bool) (s : List Char) : List Char := latexFrom digit none (clean s)

open Verif.Regex in
/-- `(?=[A-Za-z]|$)` -/
def aheadRe : Re := .follow (.alt (.chr letter) .ends)

open Verif.Regex in
/-- `(?<=[A-Za-z])1(?=[A-Za-z]|$)` (strehlow_and_cook.py:81) -/
def cleanRe : Re := .seq (.look fun b _ => b.any letter) (.seq (.lit '1') aheadRe)

open Verif.Regex in
/-- `(?<=[A-Za-z])([\d.]+)(?=[A-Za-z]|$)` (strehlow_and_cook.py:75) -/
def latexRe (digit : Char → Bool) : Re := .seq (.look fun b _ => b.any letter) (.seq (.group 1 (.plus (.chr (amountChar digit)))) aheadRe)

end Verif.Markup
