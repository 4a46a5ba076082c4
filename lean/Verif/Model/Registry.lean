import Verif.Py.Dict
/-!
# The registry of serializable classes

`DictSerializableMeta` (`gemd/entity/dict_serializable.py:18-52`) keeps one dictionary from type strings to classes, which every class statement with a `typ`
argument writes to, and gives each class the union of the `skip` sets of its bases.

Classes are numbered in the order in which they are made. Dictionaries are objects with an identity (the registry is number 0), so that a mapping handed to a user
is or is not the registry itself. Simplifications: `super().__new__` and `super().__init__` are taken to succeed (the bases have a method resolution order); classes
outside of the hierarchy have no attribute `skip`, and a class body defines neither `typ` nor `skip`; there are no virtual subclasses (`ABCMeta.register`), so
`issubclass` is the transitive closure of the bases; values of the mapping that a user stores are classes.
-/

namespace Verif.Registry
open Verif.Py

/-- what a class has in its `__dict__`, as far as the metaclass is concerned -/
structure Cls where
  /-- `__bases__` -/
  bases : List Nat
  /-- the elements of `__mro__`, in any order -/
  mro : List Nat
  /-- the type string that was set on this class itself; `dict_serializable.py:33` -/
  typ : Option String
  /-- the attribute `skip`; `dict_serializable.py:37`. `none` for classes that do not have this metaclass -/
  skip : Option (List String)
  /-- the argument `skip` of the class statement; not stored, for specifications only -/
  declared : List String

/-- a class statement: its bases and the arguments `typ` and `skip`; `dict_serializable.py:28` -/
structure Stmt where
  bases : List Nat
  typ : Option String
  skip : List String

/-- classes, and dictionaries; the registry is dictionary 0 (`dict_serializable.py:21`) -/
structure State where
  classes : List Cls
  dicts : List (Dict String Nat)

/-- before any class is defined -/
def State.start : State := ⟨[], [[]]⟩

/-- `cls._class` -/
def State.registry (s : State) : Dict String Nat := s.dicts.headD []

/-- the elements of the `__mro__` of a new class with these bases -/
def mroOf (s : State) (bases : List Nat) : List Nat :=
  s.classes.length :: bases.flatMap fun b => match s.classes[b]? with
    | some c => c.mro
    | none => []

/-- `{x for b in bases for x in getattr(b, 'skip', {})} | skip`; `dict_serializable.py:37` -/
def skipOf (s : State) (bases : List Nat) (skip : List String) : List String :=
  (bases.flatMap fun b => match s.classes[b]? with
    | some c => c.skip.getD []
    | none => []) ++ skip

/-- `typ in cls._class and not issubclass(cls, cls._class.get(typ))`; `dict_serializable.py:31` -/
def taken (s : State) (typ : String) (mro : List Nat) : Bool := match s.registry.get? typ with
  | some c => decide (c ∉ mro)
  | none => false

/-- `DictSerializableMeta.__init__`; `dict_serializable.py:28-37`. A statement that raises leaves no class behind. The attribute `typ` of a class without the argument
is inherited, or an exception class for the first (line 35-36); this is not modelled. -/
def define (s : State) (d : Stmt) : State × Except PyErr Nat :=
  let cls : Nat := s.classes.length
  let mro := mroOf s d.bases
  let made (dicts : List (Dict String Nat)) : State :=
    ⟨s.classes ++ [{ bases := d.bases, mro := mro, typ := d.typ, skip := some (skipOf s d.bases d.skip), declared := d.skip }], dicts⟩
  match d.typ with
  | some typ =>
    if taken s typ mro then (s, .error .valueError)
    else (made (s.dicts.set 0 (s.registry.set typ cls)), .ok cls)
  | none => (made s.dicts, .ok cls)

/-- a class statement outside of the hierarchy -/
def foreign (s : State) (bases : List Nat) : State :=
  ⟨s.classes ++ [{ bases := bases, mro := mroOf s bases, typ := none, skip := none, declared := [] }], s.dicts⟩

/-- the property `class_mapping`, which returns a copy; `dict_serializable.py:39-52`. Returns the identity of the dictionary. -/
def classMapping (s : State) : State × Nat := (⟨s.classes, s.dicts ++ [s.registry]⟩, s.dicts.length)

/-- what happens, in any order: class statements; a user asks for the mapping, sets or deletes items of the `h`th mapping they were given -/
inductive Event where
  | define (d : Stmt)
  | foreign (bases : List Nat)
  | mapping
  | setItem (h : Nat) (t : String) (c : Nat)
  | delItem (h : Nat) (t : String)

/-- a dictionary that is written to -/
def State.modify (s : State) (a : Option Nat) (f : Dict String Nat → Dict String Nat) : State := match a with
  | some a => ⟨s.classes, s.dicts.modify a f⟩
  | none => s

/-- the bases of a class statement are classes that exist -/
def State.bound (s : State) (bases : List Nat) : Bool := bases.all fun b => decide (b < s.classes.length)

/-- none of the classes has the metaclass -/
def State.plain (s : State) (bases : List Nat) : Bool := bases.all fun b => match s.classes[b]? with
  | some k => k.skip.isNone
  | none => false

/-- one event; `given` are the identities of the mappings the user was given. A class statement whose bases do not exist is no event.
A class statement is outside of the hierarchy only if its bases are: a class has the metaclass of its bases. -/
def step : State × List Nat → Event → State × List Nat
  | (s, given), .define d => (if s.bound d.bases then (define s d).1 else s, given)
  | (s, given), .foreign bases => (if s.plain bases then foreign s bases else s, given)
  | (s, given), .mapping => ((classMapping s).1, given ++ [(classMapping s).2])
  | (s, given), .setItem h t c => (s.modify given[h]? (·.set t c), given)
  | (s, given), .delItem h t => (s.modify given[h]? (·.erase t), given)

/-- any sequence of events -/
def run (es : List Event) : State × List Nat := es.foldl step (.start, [])

end Verif.Registry
