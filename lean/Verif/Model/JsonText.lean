import Verif.Model.Json
/-!
# The text of JSON

`gemd.json` leaves the text to the `json` module of Python (json/gemd_json.py:55, 80-87, 164, 185, 209-212). Here are `json.dumps` of a tree (that is, what `JSONEncoder` writes once
`GEMDEncoder.default` and `sort_keys` have done their part: `Verif.Json.enc`) and `json.loads` of any text, character by character, as in the modules `json.encoder`, `json.decoder` and
`json.scanner` of CPython. `load` and `dump` read and write such a text in a file (json/gemd_json.py:107, 127-128).

Simplifications. Texts are lists of Unicode scalar values: strings with lone surrogates cannot be written down, and reading one is an exception here. How floats are written and read is
a parameter. `NaN` and the infinities are exceptions, as there are no such numbers in the model. The limits on the depth of nesting and on the number of digits are left out. `JSONDecodeError`
is a ValueError.
-/

namespace Verif.JsonText
open Verif.Py Verif.Value Verif.Schema Verif.Json

/-- `float.__repr__` and `float` on texts (json.encoder.floatstr, json.decoder) -/
structure Floats where
  repr : Rat → List Char
  read : List Char → Rat

/-- `dumps(..., **kwargs)` hands these on to `json.dumps`: `ensure_ascii`, `indent` (a text; a number means that many spaces), `separators` -/
structure Style where
  ascii : Bool
  indent : Option (List Char)
  itemSep : List Char
  keySep : List Char

/-- what `dumps` uses if nothing is said -/
def Style.default : Style := ⟨true, none, [',', ' '], [':', ' ']⟩

/-- `indent=4`; the separator of items is then a comma (json/__init__.py, JSONEncoder.__init__) -/
def Style.indented : Style := ⟨true, some [' ', ' ', ' ', ' '], [','], [':', ' ']⟩

/-! ## Writing -/

/-- a digit of `'{:x}'.format(n)` -/
def hexDigit (n : Nat) : Char := if n < 10 then Char.ofNat (48 + n) else Char.ofNat (87 + n)

/-- `'\\u{0:04x}'.format(n)` -/
def uEscape (n : Nat) : List Char := ['\\', 'u', hexDigit (n / 4096 % 16), hexDigit (n / 256 % 16), hexDigit (n / 16 % 16), hexDigit (n % 16)]

/-- one character of a string (json.encoder: ESCAPE, ESCAPE_ASCII, ESCAPE_DCT, py_encode_basestring_ascii, py_encode_basestring) -/
def escape (ascii : Bool) (c : Char) : List Char :=
  if c = '"' then ['\\', '"']
  else if c = '\\' then ['\\', '\\']
  else if c = '\n' then ['\\', 'n']
  else if c = '\r' then ['\\', 'r']
  else if c = '\t' then ['\\', 't']
  else if c = '\x0c' then ['\\', 'f']
  else if c = '\x08' then ['\\', 'b']
  else if ' ' ≤ c ∧ (ascii = false ∨ c ≤ '~') then [c]
  else if c.toNat < 0x10000 then uEscape c.toNat
  else uEscape (0xd800 + (c.toNat - 0x10000) / 1024) ++ uEscape (0xdc00 + (c.toNat - 0x10000) % 1024)

/-- a string in quotes -/
def quote (ascii : Bool) (s : String) : List Char := '"' :: (s.toList.flatMap (escape ascii) ++ ['"'])

/-- `int.__repr__` -/
def intText (i : Int) : List Char := if i < 0 then '-' :: Nat.toDigits 10 i.natAbs else Nat.toDigits 10 i.natAbs

/-- the line break and the indentation before an item (`newline_indent`), nothing if there is no indentation -/
def Style.newline (st : Style) (level : Nat) : List Char := match st.indent with
  | none => []
  | some i => '\n' :: (List.replicate level i).flatten

section
variable (F : Floats) (st : Style)

mutual
/-- `json.dumps` of a tree, nested in `level` others (json.encoder._make_iterencode). Only trees are written: `enc` has made them. -/
def text (level : Nat) : V → List Char
  | .none => ['n', 'u', 'l', 'l']
  | .bool true => ['t', 'r', 'u', 'e']
  | .bool false => ['f', 'a', 'l', 's', 'e']
  | .int i => intText i
  | .float q => F.repr q
  | .str s => quote st.ascii s
  | .list [] => ['[', ']']
  | .list (v :: vs) => '[' :: (st.newline (level + 1) ++ (items (level + 1) (v :: vs) ++ (st.newline level ++ [']'])))
  | .dict [] _ => ['{', '}']
  | .dict (k :: ks) vs => '{' :: (st.newline (level + 1) ++ (pairs (level + 1) (k :: ks) vs ++ (st.newline level ++ ['}'])))
  | _ => []
/-- the items of a list, one level deeper -/
def items (level : Nat) : List V → List Char
  | [] => []
  | [v] => text level v
  | v :: w :: vs => text level v ++ (st.itemSep ++ (st.newline level ++ items level (w :: vs)))
/-- the items of a dictionary, one level deeper -/
def pairs (level : Nat) : List V → List V → List Char
  | [.str k], [v] => quote st.ascii k ++ (st.keySep ++ text level v)
  | .str k :: k' :: ks, v :: vs => quote st.ascii k ++ (st.keySep ++ (text level v ++ (st.itemSep ++ (st.newline level ++ pairs level (k' :: ks) vs))))
  | _, _ => []
end
end

/-! ## Reading -/

/-- Why reading stops: an exception, or there were not enough rounds (which does not happen: `C75_total`). -/
inductive Stop where
  | rounds
  | raised (e : PyErr)
  deriving DecidableEq

/-- ` \t\n\r` (json.decoder.WHITESPACE) -/
def isWhite (c : Char) : Bool := c == ' ' || c == '\t' || c == '\n' || c == '\r'

/-- `WHITESPACE.match(s, end).end()` -/
def skip (cs : List Char) : List Char := cs.dropWhile isWhite

/-- `[0-9A-Fa-f]` -/
def hexVal (c : Char) : Option Nat :=
  if '0' ≤ c ∧ c ≤ '9' then some (c.toNat - 48)
  else if 'a' ≤ c ∧ c ≤ 'f' then some (c.toNat - 87)
  else if 'A' ≤ c ∧ c ≤ 'F' then some (c.toNat - 55)
  else none

/-- `_decode_uXXXX` after the `u`: the number and what follows -/
def hex4 : List Char → Option (Nat × List Char)
  | a :: b :: c :: d :: r => match hexVal a, hexVal b, hexVal c, hexVal d with
    | some w, some x, some y, some z => some (w * 4096 + x * 256 + y * 16 + z, r)
    | _, _, _, _ => none
  | _ => none

/-- after the first half `n` of a surrogate pair: the second half, `\uDC00` to `\uDFFF`, has to follow (otherwise there is a lone surrogate) -/
def secondHalf (n : Nat) : List Char → Except PyErr (Char × List Char)
  | '\\' :: 'u' :: r => match hex4 r with
    | none => .error .valueError
    | some (k, r') => if 0xdc00 ≤ k ∧ k ≤ 0xdfff then .ok (Char.ofNat (0x10000 + (n - 0xd800) * 1024 + (k - 0xdc00)), r') else .error .other
  | _ => .error .other

/-- one character of a string, with what follows (json.decoder.py_scanstring, strict) -/
def unit : List Char → Except PyErr (Char × List Char)
  | [] => .error .valueError
  | '\\' :: '"' :: r => .ok ('"', r)
  | '\\' :: '\\' :: r => .ok ('\\', r)
  | '\\' :: '/' :: r => .ok ('/', r)
  | '\\' :: 'b' :: r => .ok ('\x08', r)
  | '\\' :: 'f' :: r => .ok ('\x0c', r)
  | '\\' :: 'n' :: r => .ok ('\n', r)
  | '\\' :: 'r' :: r => .ok ('\r', r)
  | '\\' :: 't' :: r => .ok ('\t', r)
  | '\\' :: 'u' :: r => match hex4 r with
    | none => .error .valueError
    | some (n, r') =>
      if 0xd800 ≤ n ∧ n ≤ 0xdbff then secondHalf n r'
      else if 0xdc00 ≤ n ∧ n ≤ 0xdfff then .error .other
      else .ok (Char.ofNat n, r')
  | '\\' :: _ => .error .valueError
  | c :: r => if c < ' ' then .error .valueError else .ok (c, r)

/-- the rest of a string, after the opening quote -/
def scanString : Nat → List Char → Except Stop (List Char × List Char)
  | 0, _ => .error .rounds
  | n + 1, cs => match cs with
    | '"' :: r => .ok ([], r)
    | cs => match unit cs with
      | .error e => .error (.raised e)
      | .ok (c, r) => match scanString n r with
        | .error e => .error e
        | .ok (s, r') => .ok (c :: s, r')

/-- `(-?(?:0|[1-9][0-9]*))`: the text and what follows -/
def intPart : List Char → Option (List Char × List Char)
  | [] => none
  | c :: r => if c = '0' then some ([c], r) else if c.isDigit then some (c :: r.takeWhile Char.isDigit, r.dropWhile Char.isDigit) else none

/-- `(\.[0-9]+)?` -/
def fraction : List Char → List Char × List Char
  | '.' :: r => if r.takeWhile Char.isDigit = [] then ([], '.' :: r) else ('.' :: r.takeWhile Char.isDigit, r.dropWhile Char.isDigit)
  | r => ([], r)

/-- `[-+]?` -/
def sign : List Char → List Char × List Char
  | c :: r => if c = '-' ∨ c = '+' then ([c], r) else ([], c :: r)
  | [] => ([], [])

/-- `([eE][-+]?[0-9]+)?` -/
def exponent : List Char → List Char × List Char
  | c :: r =>
    if c = 'e' ∨ c = 'E' then
      if (sign r).2.takeWhile Char.isDigit = [] then ([], c :: r)
      else (c :: ((sign r).1 ++ (sign r).2.takeWhile Char.isDigit), (sign r).2.dropWhile Char.isDigit)
    else ([], c :: r)
  | [] => ([], [])

/-- a number (json.scanner.NUMBER_RE): a float if there is a fraction or an exponent, an integer otherwise -/
def number (F : Floats) (cs : List Char) : Option (V × List Char) :=
  let (neg, cs') := match cs with
    | '-' :: r => (true, r)
    | cs => (false, cs)
  match intPart cs' with
  | none => none
  | some (i, r) =>
    let (f, r') := fraction r
    let (e, r'') := exponent r'
    if f = [] ∧ e = [] then some (.int (if neg then -(Nat.ofDigitChars 10 i 0 : Int) else (Nat.ofDigitChars 10 i 0 : Int)), r'')
    else some (.float (F.read ((if neg then ['-'] else []) ++ (i ++ (f ++ e)))), r'')

/-- does the text begin so? what follows -/
def word (w cs : List Char) : Option (List Char) := if w.isPrefixOf cs then some (cs.drop w.length) else none

section
variable {σ : Type} (F : Floats) (hook : List (String × V) → σ → Except PyErr (V × σ))

/-- a dictionary is complete: `dict(pairs)`, then the hook -/
def close (ps : List (String × V)) (r : List Char) (s : σ) : Except Stop (V × List Char × σ) := match hook (Dict.setAll [] ps) s with
  | .error e => .error (.raised e)
  | .ok (v, s') => .ok (v, r, s')

/-- what is neither a string nor a list nor a dictionary (json.scanner.py_make_scanner) -/
def atom (cs : List Char) (s : σ) : Except Stop (V × List Char × σ) :=
  match word ['n', 'u', 'l', 'l'] cs with
  | some r => .ok (.none, r, s)
  | none => match word ['t', 'r', 'u', 'e'] cs with
    | some r => .ok (.bool true, r, s)
    | none => match word ['f', 'a', 'l', 's', 'e'] cs with
      | some r => .ok (.bool false, r, s)
      | none => match number F cs with
        | some (v, r) => .ok (v, r, s)
        | none => if (word "NaN".toList cs).isSome || (word "Infinity".toList cs).isSome || (word "-Infinity".toList cs).isSome then .error (.raised .other)
          else .error (.raised .valueError)

mutual
/-- `scan_once`: a value, what follows it and the state of the hook -/
def value : Nat → List Char → σ → Except Stop (V × List Char × σ)
  | 0, _, _ => .error .rounds
  | _ + 1, [], _ => .error (.raised .valueError)
  | n + 1, c :: r, s =>
    if c = '"' then match scanString (r.length + 1) r with
      | .error e => .error e
      | .ok (t, r') => .ok (.str (String.ofList t), r', s)
    else if c = '[' then match skip r with
      | ']' :: r' => .ok (.list [], r', s)
      | r' => match elements n r' s with
        | .error e => .error e
        | .ok (vs, r'', s') => .ok (.list vs, r'', s')
    else if c = '{' then match skip r with
      | '}' :: r' => close hook [] r' s
      | '"' :: r' => match members n r' s with
        | .error e => .error e
        | .ok (ps, r'', s') => close hook ps r'' s'
      | _ => .error (.raised .valueError)
    else atom F (c :: r) s
/-- the items of a list, the closing bracket included (json.decoder.JSONArray) -/
def elements : Nat → List Char → σ → Except Stop (List V × List Char × σ)
  | 0, _, _ => .error .rounds
  | n + 1, cs, s => match value n cs s with
    | .error e => .error e
    | .ok (v, r, s') => match skip r with
      | ']' :: r' => .ok ([v], r', s')
      | ',' :: r' => match elements n (skip r') s' with
        | .error e => .error e
        | .ok (vs, r'', s'') => .ok (v :: vs, r'', s'')
      | _ => .error (.raised .valueError)
/-- the items of a dictionary from after the first quote, the closing brace included (json.decoder.JSONObject) -/
def members : Nat → List Char → σ → Except Stop (List (String × V) × List Char × σ)
  | 0, _, _ => .error .rounds
  | n + 1, cs, s => match scanString (cs.length + 1) cs with
    | .error e => .error e
    | .ok (k, r) => match skip r with
      | ':' :: r' => match value n (skip r') s with
        | .error e => .error e
        | .ok (v, r'', s') => match skip r'' with
          | '}' :: t => .ok ([(String.ofList k, v)], t, s')
          | ',' :: t => match skip t with
            | '"' :: t' => match members n t' s' with
              | .error e => .error e
              | .ok (ps, t'', s'') => .ok ((String.ofList k, v) :: ps, t'', s'')
            | _ => .error (.raised .valueError)
          | _ => .error (.raised .valueError)
      | _ => .error (.raised .valueError)
end

/-- `json.loads(text, object_hook=hook)`: a byte order mark is refused, and so is anything but whitespace after the value (json/__init__.py, JSONDecoder.decode) -/
def readText (cs : List Char) (s : σ) : Except Stop (V × σ) :=
  if cs.head? = some '\uFEFF' then .error (.raised .valueError)
  else match value F hook (2 * cs.length + 2) (skip cs) s with
    | .error e => .error e
    | .ok (v, r, s') => if skip r = [] then .ok (v, s') else .error (.raised .valueError)
end

/-- `json.loads(text)` without a hook -/
def plainHook (ps : List (String × V)) (s : Unit) : Except PyErr (V × Unit) := .ok (mkDict ps, s)

/-- the exception, once it is known that the rounds are enough -/
def Stop.err : Stop → PyErr
  | .rounds => .other
  | .raised e => e

/-- `raw_loads(text)` (json/gemd_json.py:187-212) -/
def rawLoadsText (F : Floats) (env : Env) (m : Mem) (cs : List Char) : Except PyErr (V × Mem) :=
  match readText F (loadAndIndex env false) cs { mem := m, index := [] } with
  | .error e => .error e.err
  | .ok (v, st) => .ok (v, st.mem)

/-- `loads(text)` (json/gemd_json.py:57-88) -/
def loadsText (F : Floats) (env : Env) (m : Mem) (cs : List Char) : Except PyErr (V × Mem) :=
  match readText F (loadAndIndex env true) cs { mem := m, index := [] } with
  | .error e => .error e.err
  | .ok (.dict ks vs, st) => match (strings ks).bind (fun names => Dict.get? (names.zip vs) "object") with
    | some v => .ok (v, st.mem)
    | none => .error .keyError
  | .ok (_, _) => .error .typeError

end Verif.JsonText
