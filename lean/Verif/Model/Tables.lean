import Verif.Py.Dict
import Verif.Model.Value
/-!
# Tables of the Strehlow & Cook demo (demo/strehlow_and_cook.py)

Numbers are rationals; `float` arithmetic is not modelled. A cell is what `make_strehlow_table` puts there: a value, a string, or None.
-/

namespace Verif.Tables
open Verif.Py

/-- a cell of a structured table; `other` is a value of any other class, given by the name of the class -/
inductive Cell where
  | nominal (nominal : Rat) (units : String)
  | normal (mean std : Rat) (units : String)
  | uniform (lower upper : Rat) (units : String)
  | category (category : String)
  | formula (formula : String)
  | text (s : String)
  | absent
  | other (name : List Char)
  deriving DecidableEq

/-- `str(type(x))` -/
def typeName : Cell → List Char
  | .nominal _ _ => "<class 'gemd.entity.value.nominal_real.NominalReal'>".toList
  | .normal _ _ _ => "<class 'gemd.entity.value.normal_real.NormalReal'>".toList
  | .uniform _ _ _ => "<class 'gemd.entity.value.uniform_real.UniformReal'>".toList
  | .category _ => "<class 'gemd.entity.value.nominal_categorical.NominalCategorical'>".toList
  | .formula _ => "<class 'gemd.entity.value.empirical_formula.EmpiricalFormula'>".toList
  | .text _ => "<class 'str'>".toList
  | .absent => "<class 'NoneType'>".toList
  | .other n => "<class '".toList ++ n ++ "'>".toList

/-- `_fingerprint(row)` (strehlow_and_cook.py:54-56) -/
def fingerprint (row : List Cell) : List Char := row.flatMap typeName

/-- the loop of `minimal_subset` (strehlow_and_cook.py:59-69), for any notion of fingerprint; `seen` is a set -/
def novel {α κ : Type} [DecidableEq κ] (fp : α → κ) : List κ → List α → List α
  | _, [] => []
  | seen, r :: rs => if fp r ∈ seen then novel fp seen rs else r :: novel fp (fp r :: seen) rs

/-- `minimal_subset(table)` -/
def minimalSubset (table : List (List Cell)) : List (List Cell) := novel fingerprint [] table

/-- the loop of the script (strehlow_and_cook.py:475-486): rows are taken while their fingerprint is still to be done; when none is left the loop ends -/
def reduce {α κ : Type} [DecidableEq κ] (fp : α → κ) : List κ → List α → List α
  | _, [] => []
  | todo, r :: rs => if fp r ∈ todo then
      if (todo.filter (fun k => k ≠ fp r)).isEmpty then [r] else r :: reduce fp (todo.filter (fun k => k ≠ fp r)) rs
    else reduce fp todo rs

/-- `small_table`, `todo` and `reduced_list` of the script -/
def reducedList {ρ : Type} (imported : List ρ) (content : List (List Cell)) : List ρ :=
  (reduce (fun p : ρ × List Cell => fingerprint p.2) ((minimalSubset content).map fingerprint) (imported.zip content)).map Prod.fst

/-! ## The display table -/

/-- the bounds of a column; None if there is no entry `bounds` -/
inductive Bounds where
  | real (units : String)
  | categorical
  | composition
  | other
  deriving DecidableEq

/-- a column of a structured table -/
structure Column where
  name : List String
  bounds : Option Bounds

/-- a cell of the display table -/
inductive Shown where
  | number (x : Rat)
  | text (s : String)
  deriving DecidableEq

/-- `header_map[type(bounds)](bounds)` (strehlow_and_cook.py:409-414) -/
def headerOf : Option Bounds → Except PyErr String
  | some (.real u) => .ok ("Mean(" ++ u ++ ")")
  | some .categorical => .ok "Category"
  | some .composition => .ok "Formula"
  | none => .ok "Label"
  | some .other => .error .keyError

/-- `content_map[type(element)](element)` (strehlow_and_cook.py:428-436) -/
def contentOf : Cell → Except PyErr Shown
  | .nominal x _ => .ok (.number x)
  | .normal x _ _ => .ok (.number x)
  | .uniform a b _ => .ok (.number ((a + b) / 2))
  | .category s => .ok (.text s)
  | .formula s => .ok (.text s)
  | .text s => .ok (.text s)
  | .absent => .ok (.text "")
  | .other _ => .error .keyError

/-- `uncert_map[type(x)](x)` (strehlow_and_cook.py:437-442) -/
def uncertaintyOf : Cell → Except PyErr Shown
  | .nominal _ _ => .ok (.text "")
  | .normal _ s _ => .ok (.number s)
  | .uniform a b _ => .ok (.number (29 / 100 * (b - a)))
  | .absent => .ok (.text "")
  | _ => .error .keyError

/-- `[f(x) for x in l]` -/
def mapE {α β : Type} (f : α → Except PyErr β) : List α → Except PyErr (List β)
  | [] => .ok []
  | a :: as => match f a with
    | .error e => .error e
    | .ok b => match mapE f as with
      | .error e => .error e
      | .ok bs => .ok (b :: bs)

/-- the header of a column: `'~'.join(column['name'] + [...])` -/
def header (c : Column) : Except PyErr String := match headerOf c.bounds with
  | .error e => .error e
  | .ok h => .ok ("~".intercalate (c.name ++ [h]))

/-- `l.insert(i, x)` -/
def insertAt {α : Type} (l : List α) (i : Nat) (x : α) : List α := l.take i ++ x :: l.drop i

/-- the cells of one row, and the uncertainty behind the band gap (strehlow_and_cook.py:443-449); IndexError if the row is too short -/
def shownRow (i : Nat) (row : List Cell) : Except PyErr (List Shown) := match mapE contentOf row with
  | .error e => .error e
  | .ok cells => match row[i]? with
    | none => .error .indexError
    | some c => match uncertaintyOf c with
      | .error e => .error e
      | .ok u => .ok (insertAt cells (i + 1) u)

/-- is the pattern part of the text? (`'Band gap' in header`) -/
def within (pat : List Char) : List Char → Bool
  | [] => pat.isEmpty
  | c :: cs => pat.isPrefixOf (c :: cs) || within pat cs

/-- `make_display_table(structured)` (strehlow_and_cook.py:397-451): the header and the rows. The entry `bounds` of the band gap's column is asked for its units: KeyError if there is
none, AttributeError if it is of another class. -/
def displayTable (columns : List Column) (content : List (List Cell)) : Except PyErr (List String × List (List Shown)) := match mapE header columns with
  | .error e => .error e
  | .ok hs => match hs.findIdx? (fun h => within "Band gap".toList h.toList) with
    | none => .error .assertionError
    | some i => match columns[i]? with
      | none => .error .indexError
      | some c => match c.bounds with
        | some (.real u) => match mapE (shownRow i) content with
          | .error e => .error e
          | .ok rows => .ok (insertAt hs (i + 1) ("~".intercalate (c.name ++ ["Std Deviation(" ++ u ++ ")"])), rows)
        | none => .error .keyError
        | some _ => .error .attributeError

/-! ## Numbers with uncertainties -/

/-- `real_mapper(prop)` (strehlow_and_cook.py:207-232), `prop` having the value, the uncertainty (if any) and the units given; `convert` is `convert_units` to attojoules. For
electron volts the standard deviation is computed from the value, as in the code. -/
def realMapper (convert : Rat → Rat) (value : Rat) (uncertainty : Option Rat) (units : String) : Cell := match uncertainty with
  | some s => if units = "eV" then .normal (convert value) (convert value) "aJ" else .normal value s units
  | none => .nominal value units

end Verif.Tables
