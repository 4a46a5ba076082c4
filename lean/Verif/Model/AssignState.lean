import Verif.Model.Assign
/-!
# Model of assignments to entities, with the state that an exception leaves behind

`x.name = value` as in Model/Assign.lean, except that the memory is kept when the setter raises. The setters of two-way links first make the old partner forget `x` and then look at the new value
(entity/object/ingredient_run.py:124-136, ingredient_spec.py:117-130, material_run.py:75-87, material_spec.py:87-109, measurement_run.py:92-103); that of the spec of an ingredient run first keeps
the name and labels (ingredient_run.py:148-155); all others look at the value first. `list.remove` raises before it changes anything.
-/

namespace Verif.Assign
open Verif.Py Verif.Value Verif.Schema Verif.Inplace

/-- the setter of the attribute `a`: the memory afterwards, and what is raised -/
def setAttrS (env : Env) (same : Mem → Nat → Nat → Bool) (m : Mem) (o : Nat) (c : ECls) (a : String) (v : V) : Mem × Option PyErr := match unlink same m o c a with
  | .error e => (m, some e)
  | .ok m1 => match conv env m (kindOf c a) v with
    | .error e => (keepNames m1 o c a, some e)
    | .ok w => (tell (setField (keepNames m1 o c a) o a (fun _ => w)) o c a w, none)

/-- `x.n = v`: the memory afterwards, and what is raised -/
def assignS (env : Env) (same : Mem → Nat → Nat → Bool) (m : Mem) (o : Nat) (n : String) (v : V) : Mem × Option PyErr := match m[o]? with
  | none => (m, some .other)
  | some x => match (eargs x.cls).find? (fun a => decide (a.name = n)) with
    | none => (m, some .attributeError)
    | some a => setAttrS env same m o x.cls a.attr v

end Verif.Assign
