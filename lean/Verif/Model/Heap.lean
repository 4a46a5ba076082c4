import Verif.Py.Dict
/-!
# Model of the links between data objects

`gemd.entity.object.{process,material,ingredient,measurement}_{run,spec}`, `has_spec.py`, `has_template.py`.

Objects live in a heap and are referred to by number. Modelled of an object: its class and the fields that refer to other objects,
the back references, and name and labels. Attributes, quantities, uids, tags, notes, file links and sources are not modelled here.
Classes are compared by equality: subclasses of the eight object classes are not modelled.

Three setters have the same text up to names (ingredient_run.py:124-136, ingredient_spec.py:117-130, measurement_run.py:92-103).
They are modelled once: `owner` stands for the `process` of an ingredient and the `material` of a measurement, `children` for the
`ingredients` of a process and the `measurements` of a material run.
-/

namespace Verif.Heap
open Verif.Py

inductive Cls where
  | processRun | processSpec | materialRun | materialSpec | ingredientRun | ingredientSpec | measurementRun | measurementSpec
  | processTemplate | materialTemplate | measurementTemplate
  | otherEntity
  deriving DecidableEq

/-- the content of a reference field: None, a LinkByUID, an object -/
inductive Ref (L : Type) where
  | none | link (l : L) | obj (o : Nat)
  deriving DecidableEq

/-- a value that is assigned: None, a LinkByUID, an object of the heap, or anything else -/
inductive Arg (L : Type) where
  | none | link (l : L) | obj (o : Nat) | other
  deriving DecidableEq

structure Obj (L N : Type) where
  cls : Cls
  spec : Ref L := .none          -- `_spec` of runs
  template : Ref L := .none      -- `_template` of specs
  owner : Ref L := .none         -- `_process` of ingredients, `_material` of measurement runs
  children : List Nat := []      -- `_ingredients` of processes, `_measurements` of material runs
  process : Ref L := .none       -- `_process` of materials
  output : Option Nat := none    -- `_output_material` of processes
  material : Ref L := .none      -- `_material` of ingredients
  name : Option N := none        -- `_name`
  labels : Option (List N) := none  -- `_labels` of ingredients
  deriving DecidableEq

structure Heap (L N : Type) where
  next : Nat
  obj : Nat → Obj L N

variable {L N : Type}

/-- the empty heap -/
def Heap.empty : Heap L N := ⟨0, fun _ => { cls := .otherEntity }⟩

/-- change one object -/
def Heap.upd (h : Heap L N) (o : Nat) (f : Obj L N → Obj L N) : Heap L N :=
  { h with obj := fun i => if i = o then f (h.obj i) else h.obj i }

/-- a new object -/
def Heap.alloc (h : Heap L N) (x : Obj L N) : Heap L N := { next := h.next + 1, obj := fun i => if i = h.next then x else h.obj i }

/-- `isinstance(o, c)` -/
def Heap.isA (h : Heap L N) (o : Nat) (c : Cls) : Bool := decide (o < h.next) && decide ((h.obj o).cls = c)

/-- classes with a spec (has_spec.py, `_spec_type`) -/
def specType : Cls → Option Cls
  | .processRun => some .processSpec
  | .materialRun => some .materialSpec
  | .ingredientRun => some .ingredientSpec
  | .measurementRun => some .measurementSpec
  | _ => none

/-- classes with a template (has_template.py, `_template_type`) -/
def templateType : Cls → Option Cls
  | .processSpec => some .processTemplate
  | .materialSpec => some .materialTemplate
  | .measurementSpec => some .measurementTemplate
  | _ => none

/-- classes with an owner: the class of the owner -/
def ownerType : Cls → Option Cls
  | .ingredientRun => some .processRun
  | .ingredientSpec => some .processSpec
  | .measurementRun => some .materialRun
  | _ => none

/-- classes with a process of which they are the output -/
def processType : Cls → Option Cls
  | .materialRun => some .processRun
  | .materialSpec => some .processSpec
  | _ => none

/-- classes with a plain reference to a material -/
def materialType : Cls → Option Cls
  | .ingredientRun => some .materialRun
  | .ingredientSpec => some .materialSpec
  | _ => none

/-- the reference stored if `None`, a link or an object of class `c` is assigned; `none` if a TypeError is raised -/
def accept (h : Heap L N) (c : Cls) : Arg L → Option (Ref L)
  | .none => some .none
  | .link l => some (.link l)
  | .obj o => if h.isA o c then some (.obj o) else none
  | .other => none

/-- state after the call and outcome -/
abbrev Ret (L N : Type) := Heap L N × Except PyErr Unit

/-- the first part of the `spec` setter of ingredient runs (ingredient_run.py:151-153): name and labels of the present spec are
stored -/
def storeSpec (h : Heap L N) (o : Nat) : Heap L N :=
  if (h.obj o).cls = .ingredientRun then
    match (h.obj o).spec with
    | .obj s => if h.isA s .ingredientSpec then h.upd o (fun x => { x with name := (h.obj s).name, labels := (h.obj s).labels }) else h
    | _ => h
  else h

/-- `HasSpec.spec` setter (has_spec.py:26-35); for ingredient runs ingredient_run.py:148-155, which stores name and labels first.
Objects without a spec field: not modelled, nothing happens. -/
def setSpec (h : Heap L N) (o : Nat) (a : Arg L) : Ret L N :=
  match specType (h.obj o).cls with
  | none => (h, .ok ())
  | some c =>
    match accept h c a with
    | some r => ((storeSpec h o).upd o (fun x => { x with spec := r }), .ok ())
    | none => (storeSpec h o, .error .typeError)

/-- `HasTemplate.template` setter (has_template.py:30-39) -/
def setTemplate (h : Heap L N) (o : Nat) (a : Arg L) : Ret L N :=
  match templateType (h.obj o).cls with
  | none => (h, if (h.obj o).cls = .ingredientSpec then .error .attributeError else .ok ())  -- ingredient_spec.py:137-140
  | some c =>
    match accept h c a with
    | some r => (h.upd o (fun x => { x with template := r }), .ok ())
    | none => (h, .error .typeError)

/-- `material` setter of ingredients (ingredient_run.py:109-117, ingredient_spec.py:102-110) -/
def setMaterial (h : Heap L N) (o : Nat) (a : Arg L) : Ret L N :=
  match materialType (h.obj o).cls with
  | none => (h, .ok ())
  | some c =>
    match accept h c a with
    | some r => (h.upd o (fun x => { x with material := r }), .ok ())
    | none => (h, .error .typeError)

/-- `list.remove(x)`: the first element that is `x` or equals it; `none` if there is none -/
def removeFirst (eqv : Nat → Bool) (x : Nat) : List Nat → Option (List Nat)
  | [] => none
  | y :: ys => if y = x ∨ eqv y then some ys else (removeFirst eqv x ys).map (y :: ·)

/-- first part of the setters below: if the present owner is an object, the object leaves its list; `none` if it is not in there -/
def unlinkOwner (eqv : Heap L N → Nat → Nat → Bool) (h : Heap L N) (o : Nat) (c : Cls) : Option (Heap L N) :=
  match (h.obj o).owner with
  | .obj p =>
    if h.isA p c then (removeFirst (fun y => eqv h y o) o (h.obj p).children).map (fun l => h.upd p (fun x => { x with children := l }))
    else some h
  | _ => some h

/-- second part: the reference is stored and the new owner's list extended -/
def linkOwner (h : Heap L N) (o : Nat) (r : Ref L) : Heap L N :=
  match r with
  | .obj p => (h.upd o (fun x => { x with owner := r })).upd p (fun x => { x with children := x.children ++ [o] })
  | _ => h.upd o (fun x => { x with owner := r })

/-- `process` setter of ingredients, `material` setter of measurement runs (ingredient_run.py:124-136, ingredient_spec.py:117-130,
measurement_run.py:92-103). `eqv h a b` is `a == b`, used by `list.remove`. -/
def setOwner (eqv : Heap L N → Nat → Nat → Bool) (h : Heap L N) (o : Nat) (a : Arg L) : Ret L N :=
  match ownerType (h.obj o).cls with
  | none => (h, .ok ())
  | some c =>
    match unlinkOwner eqv h o c with
    | none => (h, .error .valueError)  -- list.remove(x): x not in list
    | some h1 =>
      match accept h c a with
      | none => (h1, .error .typeError)
      | some r => (linkOwner h1 o r, .ok ())

/-- first part of the setter below: the present process has no output any more -/
def unlinkProcess (h : Heap L N) (o : Nat) (c : Cls) : Heap L N :=
  match (h.obj o).process with
  | .obj p => if h.isA p c then h.upd p (fun x => { x with output := none }) else h
  | _ => h

/-- second part: the new process gets the output, the reference is stored -/
def linkProcess (h : Heap L N) (o : Nat) (r : Ref L) : Heap L N :=
  match r with
  | .obj p => (h.upd p (fun x => { x with output := some o })).upd o (fun x => { x with process := r })
  | _ => h.upd o (fun x => { x with process := r })

/-- `process` setter of materials (material_run.py:75-87, material_spec.py:87-109) -/
def setProcess (h : Heap L N) (o : Nat) (a : Arg L) : Ret L N :=
  match processType (h.obj o).cls with
  | none => (h, .ok ())
  | some c =>
    match accept h c a with
    | none => (unlinkProcess h o c, .error .typeError)
    | some r => (linkProcess (unlinkProcess h o c) o r, .ok ())

/-- setting the name (base_object.py:69-72); ingredient runs have no setter (ingredient_run.py:86-93). Names that are not strings:
see `Verif.Model.Strings`. -/
def setName (h : Heap L N) (o : Nat) (n : N) : Ret L N :=
  if (h.obj o).cls = .ingredientRun then (h, .error .attributeError) else (h.upd o (fun x => { x with name := some n }), .ok ())

/-- setting the labels of an ingredient spec (ingredient_spec.py:93-95) -/
def setLabels (h : Heap L N) (o : Nat) (l : List N) : Ret L N :=
  if (h.obj o).cls = .ingredientSpec then (h.upd o (fun x => { x with labels := some l }), .ok ()) else (h, .ok ())

/-- constructor arguments; `bad` makes the last step of a constructor fail (`sample_type` of a material run) -/
structure CtorArgs (L N : Type) where
  name : Option N := none
  labels : Option (List N) := none
  spec : Arg L := .none
  template : Arg L := .none
  owner : Arg L := .none
  process : Arg L := .none
  material : Arg L := .none
  bad : Bool := false

/-- run the second step if the first did not raise -/
def andThen (r : Ret L N) (f : Heap L N → Ret L N) : Ret L N :=
  match r with
  | (h, .ok ()) => f h
  | (h, .error e) => (h, .error e)

/-- a new object before its references are set -/
def fresh (c : Cls) (a : CtorArgs L N) : Obj L N :=
  { cls := c, name := if c = .ingredientRun then none else a.name,
    labels := if c = .ingredientSpec then some (a.labels.getD []) else none }

/-- the last step of constructing: `sample_type` of a material run (material_run.py:68); name and labels of an ingredient run that is
made by `from_dict` (ingredient_run.py:173-181) -/
def finish (h : Heap L N) (o : Nat) (c : Cls) (a : CtorArgs L N) : Ret L N :=
  if c = .materialRun then (h, if a.bad then .error .valueError else .ok ())
  else if c = .ingredientRun then
    (h.upd o (fun x => { x with name := a.name.or x.name, labels := a.labels.or x.labels }), .ok ())
  else (h, .ok ())

/-- the constructors: spec or template first, then materials, then owner or process, then the sample type (process_run.py:58-79,
process_spec.py:54-77, material_run.py:49-68, material_spec.py:52-68, ingredient_run.py:59-84, ingredient_spec.py:59-86,
measurement_run.py:63-85). The new object has number `h.next`; if a step raises, the object is lost to the caller, but stays
reachable through what was linked before. Ingredient runs get name and labels from `from_dict` (ingredient_run.py:173-181): set at
the end, if given. -/
def construct (eqv : Heap L N → Nat → Nat → Bool) (h : Heap L N) (c : Cls) (a : CtorArgs L N) : Ret L N :=
  andThen (setSpec (h.alloc (fresh c a)) h.next a.spec) fun h1 =>
  andThen (if c = .ingredientSpec then (h1, .ok ()) else setTemplate h1 h.next a.template) fun h2 =>
  andThen (setMaterial h2 h.next a.material) fun h3 =>
  andThen (setOwner eqv h3 h.next a.owner) fun h4 =>
  andThen (setProcess h4 h.next a.process) fun h5 =>
  finish h5 h.next c a

/-- what a program can do -/
inductive Op (L N : Type) where
  | construct (c : Cls) (a : CtorArgs L N)
  | setSpec (o : Nat) (a : Arg L)
  | setTemplate (o : Nat) (a : Arg L)
  | setMaterial (o : Nat) (a : Arg L)
  | setOwner (o : Nat) (a : Arg L)
  | setProcess (o : Nat) (a : Arg L)
  | setName (o : Nat) (n : N)
  | setLabels (o : Nat) (l : List N)

/-- one call; calls on objects that do not exist do nothing -/
def step (eqv : Heap L N → Nat → Nat → Bool) (h : Heap L N) : Op L N → Ret L N
  | .construct c a => construct eqv h c a
  | .setSpec o a => if o < h.next then setSpec h o a else (h, .ok ())
  | .setTemplate o a => if o < h.next then setTemplate h o a else (h, .ok ())
  | .setMaterial o a => if o < h.next then setMaterial h o a else (h, .ok ())
  | .setOwner o a => if o < h.next then setOwner eqv h o a else (h, .ok ())
  | .setProcess o a => if o < h.next then setProcess h o a else (h, .ok ())
  | .setName o n => if o < h.next then setName h o n else (h, .ok ())
  | .setLabels o l => if o < h.next then setLabels h o l else (h, .ok ())

/-- a history of calls; raised exceptions are caught by the caller -/
def run (eqv : Heap L N → Nat → Nat → Bool) (h : Heap L N) : List (Op L N) → Heap L N
  | [] => h
  | op :: ops => run eqv (step eqv h op).1 ops

/-- `name` of an object; ingredient runs ask their spec (ingredient_run.py:86-93) -/
def nameOf (h : Heap L N) (o : Nat) : Option N :=
  if (h.obj o).cls = .ingredientRun then
    match (h.obj o).spec with
    | .obj s => if h.isA s .ingredientSpec then (h.obj s).name else (h.obj o).name
    | _ => (h.obj o).name
  else (h.obj o).name

/-- `labels` of an ingredient (ingredient_run.py:95-102) -/
def labelsOf (h : Heap L N) (o : Nat) : Option (List N) :=
  if (h.obj o).cls = .ingredientRun then
    match (h.obj o).spec with
    | .obj s => if h.isA s .ingredientSpec then (h.obj s).labels else (h.obj o).labels
    | _ => (h.obj o).labels
  else (h.obj o).labels

end Verif.Heap
