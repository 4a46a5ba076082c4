import Verif.Model.SciNotation
/-!
# The check of the version number (scripts/validate_version_bump.py; setup.py:8-13 reads the version with the same expression)

`git`, files and the exit of the interpreter are outside: the texts of the two version files are the input, the status of the process is the output. What
`packaging.version.Version` makes of a text is a parameter; a version is its release numbers and the rest of its sort key (pre-, post- and development releases). The
expression admits neither `!` nor `+`, so versions here have no epoch and no local part.
-/

namespace Verif.Version
open Verif.Py Verif.Regex

/-- characters of a version: `[\w\.]` (ASCII) -/
def inVersion (c : Char) : Bool := isWord c || c == '.'

/-- the version in one kind of quotes, then `$` of a line. `(['"])([\w\.]+)\1` is written as one case for each kind; group 1 is not used. -/
def quotedRe (q : Char) : Re := .seq (.lit q) (.seq (.group 2 (.plus (.chr inVersion))) (.seq (.lit q) (.look fun _ a => a == none || a == some '\n')))

/-- `^\s*__version__\s*=\s*(['"])([\w\.]+)\1$` with re.MULTILINE (validate_version_bump.py:50) -/
def versionRe : Re :=
  .seq (.look fun b _ => b == none || b == some '\n')
    (.seq (.star (.chr SciNotation.isSpace)) (.seq (.text "__version__".toList) (.seq (.star (.chr SciNotation.isSpace)) (.seq (.lit '=')
      (.seq (.star (.chr SciNotation.isSpace)) (.alt (quotedRe '\'') (quotedRe '"')))))))

/-- group 2 of `re.search(version_re, text, re.MULTILINE)` (validate_version_bump.py:52-53, setup.py:9-10) -/
def versionText (text : List Char) : Option (List Char) := (versionRe.search none text).bind fun m => m.2.get 2

/-- a version: the release numbers and the key of the rest -/
structure Ver (S : Type) where
  release : List Nat
  suffix : S
  deriving DecidableEq

/-- `extract_version` (validate_version_bump.py:49-55): no match and a text that is no version (InvalidVersion) are both a ValueError -/
def extract {S : Type} (parse : List Char → Option (Ver S)) (text : List Char) : Except PyErr (Ver S) :=
  match versionText text with
  | none => .error .valueError
  | some t => match parse t with
    | none => .error .valueError
    | some v => .ok v

/-- `v.major`, `v.minor`, `v.micro`: release numbers, 0 if there are too few (packaging) -/
def Ver.number {S : Type} (v : Ver S) (i : Nat) : Nat := v.release.getD i 0

/-- the release of the sort key: without zeros at the end (packaging, `_cmpkey`) -/
def stripZeros (l : List Nat) : List Nat := (l.reverse.dropWhile (· == 0)).reverse

/-- `<` of tuples of numbers -/
def ltTuple : List Nat → List Nat → Bool
  | [], [] => false
  | [], _ :: _ => true
  | _ :: _, [] => false
  | a :: as, b :: bs => if a = b then ltTuple as bs else decide (a < b)

/-- `v < w`: of the keys (packaging) -/
def Ver.lt {S : Type} (lt : S → S → Bool) (v w : Ver S) : Bool :=
  if stripZeros v.release = stripZeros w.release then lt v.suffix w.suffix else ltTuple (stripZeros v.release) (stripZeros w.release)

/-- which number has changed (validate_version_bump.py:25-36) -/
def code {S : Type} (new old : Ver S) : Nat :=
  if new.number 0 ≠ old.number 0 then 1
  else if new.number 1 ≠ old.number 1 then 2
  else if new.number 2 ≠ old.number 2 then 3
  else 5

/-- what `main` returns for two versions (validate_version_bump.py:38-46) -/
def verdict {S : Type} (lt : S → S → Bool) (new old : Ver S) : Nat :=
  if old.lt lt new then 0
  else if new.lt lt old then code new old
  else 4

/-- `main` (validate_version_bump.py:9-46); the exceptions of line 16 and 23 are ValueErrors as well -/
def main {S : Type} (parse : List Char → Option (Ver S)) (lt : S → S → Bool) (new old : List Char) : Except PyErr Nat :=
  match extract parse new with
  | .error _ => .error .valueError
  | .ok n => match extract parse old with
    | .error _ => .error .valueError
    | .ok o => .ok (verdict lt n o)

/-- the status of the process (validate_version_bump.py:58-62): an exception that nobody catches makes it 1 -/
def status {S : Type} (parse : List Char → Option (Ver S)) (lt : S → S → Bool) (new old : List Char) : Nat :=
  match main parse lt new old with
  | .error _ => 1
  | .ok n => n

end Verif.Version
