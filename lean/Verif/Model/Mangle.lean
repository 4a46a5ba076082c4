import Verif.Model.Strings
/-!
# Model of the scaling-factor handling of `gemd.units.impl`

Strings are lists of ASCII characters (`\d`, `\w`, `\b`, `[a-zA-Z]` have their ASCII meaning). `pint`'s tokenizer and registry
are not modelled: token lists and canonical unit names are arguments.
-/

namespace Verif.Mangle
open Verif.Py Verif.Strings

/-! ## Tokens and blocks -/

/-- token types that `_scaling_find_blocks` tells apart -/
inductive TokType where
  | op | name | number | error | other
  deriving DecidableEq

/-- a token: type, text, and the columns where it starts and ends in the input, which is one line -/
structure Token where
  typ : TokType
  text : List Char
  start : Nat
  stop : Nat
  deriving DecidableEq

/-- `{"**", "^"}` -/
def isPow (s : List Char) : Bool := s == ['*', '*'] || s == ['^']

/-- `{"**", "^", ".", "-", "+"}` (units/impl.py:71) -/
def keepsBlock (s : List Char) : Bool := isPow s || s == ['.'] || s == ['-'] || s == ['+']

/-- `_ALLOWED_OPERATORS` (units/impl.py:44) -/
def allowedOp (s : List Char) : Bool :=
  s == ['.'] || s == ['+'] || s == ['-'] || s == ['*'] || s == ['/'] || s == ['/', '/'] || s == ['^'] || s == ['*', '*'] ||
    s == ['('] || s == [')']

/-- state of the loop: finished blocks (first first), the current block, the operator stack (top first) -/
structure BlockSt where
  done : List (List Token)
  cur : List Token
  stack : List Token
  deriving DecidableEq

/-- pop until a '(' has been popped (units/impl.py:80-83) -/
def popParen : List Token → List Token
  | [] => []
  | t :: s => if t.text = ['('] then s else popParen s

/-- the operator stack after an operator (units/impl.py:78-86) -/
def opStack (t : Token) (stack : List Token) : List Token :=
  if t.text = ['('] then t :: stack
  else if t.text = [')'] then popParen stack
  else if isPow t.text then t :: t :: stack
  else stack

/-- the last token of the block is a name -/
def endsName (cur : List Token) : Bool := match cur.getLast? with | some l => l.typ == .name | none => false

/-- the handlers (units/impl.py:64-97), `ctx` is `exponent_context` -/
def handle (ctx : Bool) (s : BlockSt) (t : Token) : Except PyErr BlockSt :=
  match t.typ with
  | .op =>
    if allowedOp t.text then
      if ctx || keepsBlock t.text then .ok ⟨s.done, s.cur ++ [t], opStack t s.stack⟩
      else .ok ⟨s.done ++ [s.cur], [], opStack t s.stack⟩
    else .error .undefinedUnit
  | .name =>
    if ctx || !endsName s.cur then .ok ⟨s.done, s.cur ++ [t], s.stack⟩ else .ok ⟨s.done ++ [s.cur], [t], s.stack⟩
  | .number => .ok ⟨s.done, s.cur ++ [t], s.stack⟩
  | .error => .ok ⟨s.done, s.cur ++ [t], s.stack⟩
  | .other => .ok s

/-- leaving an exponent (units/impl.py:111-112) -/
def popPow (s : List Token) : List Token :=
  match s with
  | top :: rest => if isPow top.text then rest else s
  | [] => []

/-- one round of the loop (units/impl.py:107-112) -/
def blockStep (s : BlockSt) (t : Token) : Except PyErr BlockSt :=
  match handle (s.stack.any (fun t => isPow t.text)) s t with
  | .error e => .error e
  | .ok s' => .ok ⟨s'.done, s'.cur, popPow s'.stack⟩

/-- the loop -/
def blockLoop (s : BlockSt) : List Token → Except PyErr BlockSt
  | [] => .ok s
  | t :: ts =>
    match blockStep s t with
    | .error e => .error e
    | .ok s' => blockLoop s' ts

/-- `_scaling_find_blocks` (units/impl.py:56-114) -/
def findBlocks (ts : List Token) : Except PyErr (List (List Token)) :=
  match blockLoop { done := [], cur := [], stack := [] } ts with
  | .error e => .error e
  | .ok s => .ok (s.done ++ [s.cur])

/-- the position of the first token satisfying `p`, if any (`next((i for i, t in enumerate(block) if ...), None)`) -/
def firstIdx (p : Token → Bool) : List Token → Option Nat
  | [] => none
  | t :: ts => if p t then some 0 else (firstIdx p ts).map (· + 1)

/-- numbers before position `n`, with positions (units/impl.py:134) -/
def numbersBefore (block : List Token) (n : Nat) : List (Nat × List Char) :=
  ((List.range block.length).zip block).filterMap (fun p => if p.2.typ = .number ∧ p.1 < n then some (p.1, p.2.text) else none)

/-- `s[a:b]` for columns `a` and `b` -/
def slice (s : List Char) (a b : Nat) : List Char := (s.take b).drop a

/-- an element of `todo`: the scaled term, the factor, the unit (units/impl.py:150) -/
structure Todo where
  term : List Char
  value : List Char
  unit : Option (List Char)
  deriving DecidableEq

/-- the column where the token at a position starts (the token is there) -/
def startAt (block : List Token) (i : Nat) : Nat := match block[i]? with | some t => t.start | none => 0

/-- the column where the token at a position ends (the token is there) -/
def stopAt (block : List Token) (i : Nat) : Nat := match block[i]? with | some t => t.stop | none => 0

/-- what a block contributes (units/impl.py:129-154). `trivialFactor` is `float(value) == 1.0 or float(value) == 0.0`. -/
def identifyBlock (trivialFactor : List Char → Bool) (input : List Char) (block : List Token) : Except PyErr (Option Todo) :=
  let iExp := (firstIdx (fun t => isPow t.text) block).getD block.length
  let iName := firstIdx (fun t => t.typ == .name) block
  match numbersBefore block iExp with
  | [] => .ok none
  | [(position, value)] =>
    let term := slice input (startAt block 0) (stopAt block (block.length - 1))
    if iExp ≠ block.length then .error .valueError
    else
      match iName with
      | some i =>
        if i < position then .error .valueError
        else if trivialFactor value then .ok none
        else .ok (some ⟨term, value, some (slice input (startAt block (position + 1)) (stopAt block i))⟩)
      | none => if trivialFactor value then .ok none else .ok (some ⟨term, value, none⟩)
  | _ => .error .valueError

/-- `_scaling_identify_factors` (units/impl.py:117-156) -/
def identifyFactors (trivialFactor : List Char → Bool) (input : List Char) : List (List Token) → Except PyErr (List Todo)
  | [] => .ok []
  | b :: bs =>
    match identifyBlock trivialFactor input b with
    | .error e => .error e
    | .ok r =>
      match identifyFactors trivialFactor input bs with
      | .error e => .error e
      | .ok rs => .ok (match r with | some x => x :: rs | none => rs)

/-- `_scaling_preprocessor` up to the mangling (units/impl.py:196-201): the first block is dropped -/
def scalingFactors (trivialFactor : List Char → Bool) (input : List Char) (ts : List Token) : Except PyErr (List Todo) :=
  match findBlocks ts with
  | .error e => .error e
  | .ok bs => identifyFactors trivialFactor input (bs.drop 1)

/-! ## Mangling -/

/-- `\s` (ASCII) -/
def isSpace (c : Char) : Bool := c == ' ' || c == '\t' || c == '\n' || c == '\r' || c == '\x0b' || c == '\x0c'

/-- `re.sub(r"[+\s]+", "", s)` -/
def dropPlusSpace (s : List Char) : List Char := s.filter (fun c => !(c == '+' || isSpace c))

/-- `re.sub(r"(?<=\d)_(?=\d)", "", s)`; `prev` says whether the character before is a digit -/
def dropSeparators (prev : Bool) : List Char → List Char
  | [] => []
  | c :: cs =>
    if c = '_' && prev && (match cs with | d :: _ => d.isDigit | [] => false) then dropSeparators false cs
    else c :: dropSeparators c.isDigit cs

/-- `re.sub(r"(?<=\d)_(?=\d)", "", re.sub(r"[+\s]+", "", scaled_term).replace("--", ""))` (units/impl.py:169-171) -/
def stripTerm (s : List Char) : List Char := dropSeparators false (replaceAll ['-', '-'] [] (dropPlusSpace s))

/-- `re.sub(r"(?<!0)(?=\.)", "0", s)`: a zero is put before a dot that does not follow a zero -/
def zeroDots (prev : Option Char) : List Char → List Char
  | [] => []
  | c :: cs => if c = '.' && prev ≠ some '0' then '0' :: c :: zeroDots (some c) cs else c :: zeroDots (some c) cs

/-- `stripped_unit` (units/impl.py:174-176) -/
def stripUnit (s : List Char) : List Char := replaceAll ['-', '-'] [] (zeroDots none (dropPlusSpace s))

/-- `re.sub(r"[-.]", "_", s)` (units/impl.py:185) -/
def underscore (s : List Char) : List Char := s.map (fun c => if c = '-' ∨ c = '.' then '_' else c)

/-- the identifier made of a scaled term (units/impl.py:169-186); `unit` is the unit part of the term and the registry's
canonical name for it, if there is one. For defining the unit and substituting it in the input see Model/Scaling.lean. -/
def mangle (term : List Char) (unit : Option (List Char × List Char)) : List Char :=
  let long := match unit with
    | some (u, longUnit) => replaceAll (stripUnit u) ('_' :: longUnit) (stripTerm term)
    | none => stripTerm term
  '_' :: underscore long

/-! ## Unmangling -/

/-- `\w` -/
def isWord (c : Char) : Bool := c.isAlphanum || c == '_'

/-- the five groups of a match of `_(_)?(\d+)(_\d+)?([eE]_?\d+)?(_(?=[a-zA-Z]))?` at the start of a string -/
structure Match where
  minus : Bool                            -- group 1
  digits : List Char                      -- group 2
  frac : Option (List Char)               -- group 3, without its underscore
  exp : Option (Char × Bool × List Char)  -- group 4: letter, underscore?, digits
  space : Bool                            -- group 5
  rest : List Char                        -- what follows the match

/-- group 3 -/
def matchFrac : List Char → Option (List Char) × List Char
  | '_' :: d :: cs => if d.isDigit then (some ((d :: cs).takeWhile Char.isDigit), (d :: cs).dropWhile Char.isDigit)
      else (none, '_' :: d :: cs)
  | cs => (none, cs)

/-- group 4 -/
def matchExp : List Char → Option (Char × Bool × List Char) × List Char
  | e :: '_' :: d :: cs =>
    if (e = 'e' ∨ e = 'E') ∧ d.isDigit then (some (e, true, (d :: cs).takeWhile Char.isDigit), (d :: cs).dropWhile Char.isDigit)
    else (none, e :: '_' :: d :: cs)
  | e :: d :: cs =>
    if (e = 'e' ∨ e = 'E') ∧ d.isDigit then (some (e, false, (d :: cs).takeWhile Char.isDigit), (d :: cs).dropWhile Char.isDigit)
    else (none, e :: d :: cs)
  | cs => (none, cs)

/-- group 5 -/
def matchSpace : List Char → Bool × List Char
  | '_' :: c :: cs => if c.isAlpha then (true, c :: cs) else (false, '_' :: c :: cs)
  | cs => (false, cs)

/-- groups 2 to 5 -/
def matchNumber (minus : Bool) (cs : List Char) : Option Match :=
  let ds := cs.takeWhile Char.isDigit
  if ds = [] then none
  else
    let (frac, r1) := matchFrac (cs.dropWhile Char.isDigit)
    let (exp, r2) := matchExp r1
    let (space, r3) := matchSpace r2
    some { minus := minus, digits := ds, frac := frac, exp := exp, space := space, rest := r3 }

/-- a match starting here. All groups after `\d+` are optional, so only group 1 is ever given back by the matcher. -/
def matchHere : List Char → Option Match
  | '_' :: '_' :: cs => matchNumber true cs
  | '_' :: cs => matchNumber false cs
  | _ => none

/-- `re.search(number_re, s)` (units/impl.py:208-209): the text matched and the match; `prev` says whether the character before
is a word character -/
def search (prev : Bool) : List Char → Option (List Char × Match)
  | [] => none
  | c :: cs =>
    match (if prev then none else matchHere (c :: cs)) with
    | some m => some ((c :: cs).take ((c :: cs).length - m.rest.length), m)
    | none => search (isWord c) cs

/-- the replacement (units/impl.py:210-214) -/
def replacement (m : Match) : List Char :=
  (if m.minus then ['-'] else []) ++ m.digits ++
    (match m.frac with | some f => '.' :: f | none => []) ++
    (match m.exp with | some (e, neg, ds) => e :: ((if neg then ['-'] else []) ++ ds) | none => []) ++
    (if m.space then [' '] else [])

/-- `_unmangle_scaling` (units/impl.py:206-216) with at most `fuel` rounds; `unmangle` below needs no more. -/
def unmangleFuel : Nat → List Char → Option (List Char)
  | 0, s => match search false s with
    | none => some s
    | some _ => none
  | fuel + 1, s =>
    match search false s with
    | none => some s
    | some (text, m) => unmangleFuel fuel (replaceAll text (replacement m) s)

/-- number of underscores -/
def underscores (s : List Char) : Nat := s.count '_'

/-- `_unmangle_scaling`; `none` would mean that the loop is still running after one round per underscore. That this never
happens is a theorem (`C16_terminates`). -/
def unmangle (s : List Char) : Option (List Char) := unmangleFuel (underscores s) s

end Verif.Mangle
