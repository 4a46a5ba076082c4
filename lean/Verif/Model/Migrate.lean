import Verif.Model.Strings
/-!
# Renamed symbols of enumerations: the decorator `migrated_enum` (enumeration/base_enumeration.py:81-136)

The decorator derives a metaclass, gives it a `__getitem__` and a property for the old symbol, and makes it the class of the enumeration. What it prints and the texts of
the warnings are not modelled, only how often a warning is given. The decorator `deprecated` of the library `deprecation` is taken to warn at every call and to call.
-/

namespace Verif.Migrate
open Verif.Py Verif.Strings

variable {Str : Type} [DecidableEq Str]

/-- an enumeration class: its members under their symbols (`_member_map_`), and what the metaclasses put around it hold, the outermost first: old symbol and new value
(base_enumeration.py:108-120, 131-132) -/
structure EnumCls (Str : Type) where
  members : List (Str × Member Str)
  metas : List (Str × Str)
  deriving DecidableEq

/-- the class statement: symbols with values and synonyms, created in order (base_enumeration.py:29-39); no metaclass is put around it -/
def create (o : StrOps Str) (decls : List (Str × Str × List Str)) : Except PyErr (EnumCls Str) :=
  match mkEnum o [] (decls.map Prod.snd) with
  | .error e => .error e
  | .ok ms => .ok ⟨(decls.map Prod.fst).zip ms, []⟩

/-- `cls(value)`: exact value first, then `_missing_` (base_enumeration.py:72-78) -/
def call (o : StrOps Str) (c : EnumCls Str) (v : Str) : Except PyErr (Member Str) :=
  callEnum o (c.members.map Prod.snd) v

/-- `migrated_enum(old_value=old, new_value=new, ...)(cls)` (base_enumeration.py:104-134): the class afterwards and the exception, if any. The target is looked up for
the text of the warning (line 128) before anything is changed (lines 132-133). -/
def migrate (o : StrOps Str) (c : EnumCls Str) (old new : Str) : EnumCls Str × Option PyErr :=
  match call o c new with
  | .error e => (c, some e)
  | .ok _ => ({ c with metas := (old, new) :: c.metas }, none)

/-- `EnumMeta.__getitem__`: the member with that symbol, or KeyError -/
def symbol (c : EnumCls Str) (name : Str) : Option (Member Str) :=
  (c.members.find? (fun p => decide (p.1 = name))).map Prod.snd

/-- the `__getitem__`s, the outermost first; `super().__getitem__` is the next (base_enumeration.py:111-120): warnings given, and the result -/
def itemIn (o : StrOps Str) (c : EnumCls Str) (name : Str) : List (Str × Str) → Nat × Except PyErr (Member Str)
  | [] => (0, match symbol c name with
    | some m => .ok m
    | none => .error .keyError)
  | (old, new) :: rest =>
    if name = old then
      match call o c new with  -- for the text of the warning (line 116)
      | .error e => (0, .error e)
      | .ok _ => (1, call o c new)
    else itemIn o c name rest

/-- `cls[name]` -/
def getItem (o : StrOps Str) (c : EnumCls Str) (name : Str) : Nat × Except PyErr (Member Str) := itemIn o c name c.metas

/-- `cls.name` for a symbol: properties of the metaclasses come before the attributes of the class (data descriptors), in the order of the metaclasses
(base_enumeration.py:122-132). Attributes of the class that are not members are not modelled. -/
def getAttr (o : StrOps Str) (c : EnumCls Str) (name : Str) : Nat × Except PyErr (Member Str) :=
  match c.metas.find? (fun p => decide (p.1 = name)) with
  | some p => (1, call o c p.2)
  | none => (0, match symbol c name with
    | some m => .ok m
    | none => .error .attributeError)

/-- decorators applied one after the other (the innermost first), also if one of them raises -/
def migrateAll (o : StrOps Str) (c : EnumCls Str) : List (Str × Str) → EnumCls Str
  | [] => c
  | (old, new) :: rest => migrateAll o (migrate o c old new).1 rest

end Verif.Migrate
