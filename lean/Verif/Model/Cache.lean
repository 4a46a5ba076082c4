import Verif.Py.Dict
/-!
# Model of `functools.lru_cache` and of the cached functions of gemd

The cached functions are `convert_units`, `parse_units`, `get_base_units` (units/impl.py:260, 328, 367) and
`_cached_issubclass` (util/impl.py:65). The underlying functions (pint, `issubclass`) are parameters.
-/

namespace Verif.Cache
open Verif.Py

variable {K V W : Type}

/-- contents of a cache: keys and results, least recently used first -/
abbrev LRU (K V : Type) := List (K × V)

/-- remove and return the first entry whose key Python considers equal -/
def LRU.take (eqv : K → K → Bool) : LRU K V → K → Option ((K × V) × LRU K V)
  | [], _ => none
  | e :: rest, k =>
    if eqv e.1 k then some (e, rest)
    else match LRU.take eqv rest k with
      | some (e', rest') => some (e', e :: rest')
      | none => none

/-- A call of a function wrapped in `lru_cache(maxsize=size)` (CPython's functools.py:546-592 `lru_cache_wrapper`,
single-threaded): a hit returns the stored result and makes the entry most recent; a miss computes; exceptions are not
stored; when full the least recent entry is dropped; `maxsize=0` stores nothing. `f w k` is the undecorated function in
world `w`. -/
def LRU.call (eqv : K → K → Bool) (size : Nat) (f : K → Except PyErr V) (c : LRU K V) (k : K) : LRU K V × Except PyErr V :=
  match LRU.take eqv c k with
  | some (e, rest) => (rest ++ [e], .ok e.2)
  | none =>
    match f k with
    | .error e => (c, .error e)
    | .ok v =>
      if size = 0 then (c, .ok v)
      else if c.length ≥ size then (c.drop 1 ++ [(k, v)], .ok v)
      else (c ++ [(k, v)], .ok v)

/-! ## The units module -/

/-- what the three functions compute from the definitions in force; keys and results are abstract. Defining mangled units
while parsing (units/impl.py:186-190) extends the registry without changing other answers; this is part of `pint` and is
not modelled. -/
structure UnitFns (Reg KC VC KP VP KB VB : Type) where
  convert : Reg → KC → Except PyErr VC
  parse : Reg → KP → Except PyErr VP
  base : Reg → KB → Except PyErr VB

/-- Python equality of the argument tuples of the three functions -/
structure KeyEqs (KC KP KB : Type) where
  convert : KC → KC → Bool
  parse : KP → KP → Bool
  base : KB → KB → Bool

/-- the module's state: the registry and the three caches -/
structure Units (Reg KC VC KP VP KB VB : Type) where
  reg : Reg
  cConvert : LRU KC VC
  cParse : LRU KP VP
  cBase : LRU KB VB

/-- a call of the module; `change` carries the result of loading the file (units/impl.py:401-422) -/
inductive UOp (Reg KC KP KB : Type) where
  | convert (k : KC)
  | parse (k : KP)
  | base (k : KB)
  | change (load : Except PyErr Reg)
  | clear                 -- first half of `change_definitions_file` (units/impl.py:402-404)
  | install (r : Reg)     -- second half (units/impl.py:414)

inductive UOut (VC VP VB : Type) where
  | convert (r : Except PyErr VC)
  | parse (r : Except PyErr VP)
  | base (r : Except PyErr VB)
  | done (r : Except PyErr Unit)

variable {Reg KC VC KP VP KB VB : Type}

/-- cache sizes (units/impl.py:260, 328, 367) -/
structure Sizes where
  convert : Nat
  parse : Nat
  base : Nat

/-- the sizes in the code -/
def gemdSizes : Sizes := { convert := 1024 * 1024, parse := 1024, base := 1024 }

/-- one call -/
def ustep (fns : UnitFns Reg KC VC KP VP KB VB) (eq : KeyEqs KC KP KB) (n : Sizes)
    (s : Units Reg KC VC KP VP KB VB) : UOp Reg KC KP KB → Units Reg KC VC KP VP KB VB × UOut VC VP VB
  | .convert k =>
    let r := LRU.call eq.convert n.convert (fns.convert s.reg) s.cConvert k
    ({ s with cConvert := r.1 }, .convert r.2)
  | .parse k =>
    let r := LRU.call eq.parse n.parse (fns.parse s.reg) s.cParse k
    ({ s with cParse := r.1 }, .parse r.2)
  | .base k =>
    let r := LRU.call eq.base n.base (fns.base s.reg) s.cBase k
    ({ s with cBase := r.1 }, .base r.2)
  | .change load =>
    -- the caches are cleared before the file is looked for
    let s' := { s with cConvert := [], cParse := [], cBase := [] }
    match load with
    | .error e => (s', .done (.error e))
    | .ok r => ({ s' with reg := r }, .done (.ok ()))
  | .clear => ({ s with cConvert := [], cParse := [], cBase := [] }, .done (.ok ()))
  | .install r => ({ s with reg := r }, .done (.ok ()))

/-- a history and what was observed -/
def urun (fns : UnitFns Reg KC VC KP VP KB VB) (eq : KeyEqs KC KP KB) (n : Sizes)
    (s : Units Reg KC VC KP VP KB VB) : List (UOp Reg KC KP KB) → Units Reg KC VC KP VP KB VB × List (UOut VC VP VB)
  | [] => (s, [])
  | o :: os =>
    let r := ustep fns eq n s o
    let r' := urun fns eq n r.1 os
    (r'.1, r.2 :: r'.2)

/-! ## cached_isinstance -/

/-- the second argument of isinstance: a class, a non-class, or a (nested) tuple -/
inductive ClassArg (C : Type) where
  | cls (c : C)
  | notClass
  | tuple (l : List (ClassArg C))

mutual
/-- CPython's `issubclass(cls, class_or_tuple)`: a tuple is searched from the left, recursively, and the search stops at the
first hit, so that a non-class behind it goes unnoticed; `sub` is the relation between classes -/
def issubclass {C : Type} (sub : C → C → Bool) (c : C) : ClassArg C → Except PyErr Bool
  | .cls d => .ok (sub c d)
  | .notClass => .error .typeError
  | .tuple l => issubclassAny sub c l
def issubclassAny {C : Type} (sub : C → C → Bool) (c : C) : List (ClassArg C) → Except PyErr Bool
  | [] => .ok false
  | a :: l =>
    match issubclass sub c a with
    | .error e => .error e
    | .ok true => .ok true
    | .ok false => issubclassAny sub c l
end

/-- `cached_isinstance(obj, class_or_tuple)` (util/impl.py:38-57, 64-85): the cache is keyed by the object's type and the
second argument (an unhashable second argument raises TypeError and is not modelled). `typ` is Python's `type`. -/
def cachedIsinstance {O C : Type} (eqv : C × ClassArg C → C × ClassArg C → Bool) (size : Nat) (sub : C → C → Bool)
    (typ : O → C) (c : LRU (C × ClassArg C) Bool) (o : O) (a : ClassArg C) :
    LRU (C × ClassArg C) Bool × Except PyErr Bool :=
  LRU.call eqv size (fun k => issubclass sub k.1 k.2) c (typ o, a)

/-- A program: type checks, and `ABCMeta.register`, which changes the subclass relation. -/
inductive IOp (O C : Type) where
  | check (o : O) (a : ClassArg C)
  | register (sub : C → C → Bool)   -- the relation after a registration

/-- a history: the relation, the cache, and the answers -/
def irun {O C : Type} (eqv : C × ClassArg C → C × ClassArg C → Bool) (size : Nat) (typ : O → C)
    (sub : C → C → Bool) (c : LRU (C × ClassArg C) Bool) : List (IOp O C) → List (Except PyErr Bool)
  | [] => []
  | .check o a :: ops =>
    let r := cachedIsinstance eqv size sub typ c o a
    r.2 :: irun eqv size typ sub r.1 ops
  | .register sub' :: ops => irun eqv size typ sub' c ops

end Verif.Cache
