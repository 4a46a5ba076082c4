import Verif.Model.Strings
/-!
# Python's regular expressions, as far as gemd uses them

A backtracking matcher: the ways to match are listed in the order in which `re` tries them, the first one is the match. Strings are lists of ASCII characters. The
expressions are those of units/impl.py:52, 168-175, 185 and 208, empirical_formula.py:49 and strehlow_and_cook.py:75 and 81.
-/

namespace Verif.Regex
open Verif.Py Verif.Strings

/-- a regular expression -/
inductive Re where
  | eps
  | chr (p : Char → Bool)
  | seq (a b : Re)
  | alt (a b : Re)         -- `a|b`: `a` first
  | star (a : Re)          -- `a*`, greedy
  | bound                  -- `\b`
  | ahead (p : Char → Bool) -- `(?=[...])`
  | look (p : Option Char → Option Char → Bool) -- `(?<=...)`, `(?<!...)`, `(?=...)`, `(?!...)` with one character: the one before and the one after
  | follow (a : Re)        -- `(?=a)`
  | ends                   -- `$`: the end, or a newline that is the end
  | group (n : Nat) (a : Re)

/-- `a?` -/
def Re.opt (a : Re) : Re := .alt a .eps

/-- `a+` -/
def Re.plus (a : Re) : Re := .seq a (.star a)

/-- a literal character -/
def Re.lit (c : Char) : Re := .chr (· == c)

/-- where the matcher is: the character before, the text that follows, and the groups that have matched, last first -/
structure At where
  prev : Option Char
  rest : List Char
  groups : List (Nat × List Char)
  deriving DecidableEq

/-- `\w` -/
def isWord (c : Char) : Bool := c.isAlphanum || c == '_'

/-- is there a word character? -/
def wordy : Option Char → Bool
  | some c => isWord c
  | none => false

/-- `\b` holds between two characters -/
def boundary (before after : Option Char) : Bool := wordy before != wordy after

/-- repetitions, as many as possible first, at most `n`; an empty repetition ends the loop -/
def repeated (f : At → List At) : Nat → At → List At
  | 0, c => [c]
  | n + 1, c => ((f c).filter fun d => decide (d.rest.length < c.rest.length)).flatMap (repeated f n) ++ [c]

/-- all ways to match, in the order of `re` -/
def Re.run : Re → At → List At
  | .eps, c => [c]
  | .chr p, c => match c.rest with
    | [] => []
    | x :: xs => if p x then [{ c with prev := some x, rest := xs }] else []
  | .seq a b, c => (a.run c).flatMap b.run
  | .alt a b, c => a.run c ++ b.run c
  | .star a, c => repeated a.run c.rest.length c
  | .bound, c => if boundary c.prev c.rest.head? then [c] else []
  | .ahead p, c => match c.rest with
    | [] => []
    | x :: _ => if p x then [c] else []
  | .look p, c => if p c.prev c.rest.head? then [c] else []
  | .follow a, c => if (a.run c).isEmpty then [] else [c]
  | .ends, c => if c.rest = [] ∨ c.rest = ['\n'] then [c] else []
  | .group n a, c => (a.run c).map fun d => { d with groups := (n, c.rest.take (c.rest.length - d.rest.length)) :: d.groups }

/-- `re.match` here: the first way to match -/
def Re.here (r : Re) (prev : Option Char) (s : List Char) : Option At := (r.run ⟨prev, s, []⟩).head?

/-- the text of a group -/
def At.get (c : At) (n : Nat) : Option (List Char) := (c.groups.find? (fun g => g.1 == n)).map Prod.snd

/-- `re.sub(r, f, s)` for an expression that does not match the empty string; at most `n` steps -/
def Re.subN (r : Re) (f : At → List Char) : Nat → Option Char → List Char → List Char
  | 0, _, s => s
  | _ + 1, _, [] => []
  | n + 1, prev, x :: xs => match r.here prev (x :: xs) with
    | some d => f d ++ r.subN f n d.prev d.rest
    | none => x :: r.subN f n (some x) xs

/-- `re.sub(r, f, s)` -/
def Re.sub (r : Re) (f : At → List Char) (s : List Char) : List Char := r.subN f s.length none s

/-- a text, character by character (`re.escape`) -/
def Re.text : List Char → Re
  | [] => .eps
  | c :: cs => .seq (.lit c) (Re.text cs)

/-- `re.search(r, s)`: the text of the match, and where it ends -/
def Re.search (r : Re) (prev : Option Char) : List Char → Option (List Char × At)
  | [] => (r.here prev []).map fun d => ([], d)
  | x :: xs => match r.here prev (x :: xs) with
    | some d => some ((x :: xs).take ((x :: xs).length - d.rest.length), d)
    | none => r.search (some x) xs

/-- `re.findall(r, s)` for an expression without groups that does not match the empty string; at most `n` steps -/
def Re.findN (r : Re) : Nat → Option Char → List Char → List (List Char)
  | 0, _, _ => []
  | _ + 1, _, [] => []
  | n + 1, prev, x :: xs => match r.here prev (x :: xs) with
    | some d => (x :: xs).take ((x :: xs).length - d.rest.length) :: r.findN n d.prev d.rest
    | none => r.findN n (some x) xs

/-- `re.findall(r, s)` -/
def Re.findall (r : Re) (s : List Char) : List (List Char) := r.findN s.length none s

/-- `re.sub(r, t, s)` for an expression that matches the empty string only, and not at the end -/
def Re.insert (r : Re) (t : List Char) (prev : Option Char) : List Char → List Char
  | [] => []
  | x :: xs => match r.here prev (x :: xs) with
    | some _ => t ++ x :: r.insert t (some x) xs
    | none => x :: r.insert t (some x) xs

end Verif.Regex
