import Verif.Model.Heap
/-!
# Ingesting a material run and a table (demo/material_run_example.py, demo/table_example.py)

Objects live in the heap of Model/Heap.lean, which has their links; what else is set here - ids, tags and attributes - is kept beside it. Attributes are checked against the
bounds of their templates only at the level FATAL, which is not the default; the checks are not modelled here (C22 is about them).
-/

set_option linter.unusedVariables false

namespace Verif.Ingest
open Verif.Py Verif.Heap

/-- Data as `json.loads` gives them. Floats, integers and booleans are numbers here; integers too large for a float are left out. -/
inductive Raw where
  | none
  | num (x : Rat)
  | str (s : List Char)
  | list (l : List Raw)
  | dict (d : List (String × Raw))

/-- the values made here, with all they hold -/
inductive Val where
  | nominal (x : Rat) (units : List Char)
  | normal (mean std : Rat) (units : List Char)
  | category (s : List Char)
  deriving DecidableEq

/-- What is not in the repository: which characters are whitespace (`str.split`), `float` of a text (`none`: ValueError; texts like `nan` are left out), `parse_units`
(pint), and the order in which a set of names is iterated. -/
structure Env where
  space : Char → Bool
  read : List Char → Option Rat
  parse : List Char → Except PyErr (List Char)
  order : List String → List String

/-- `s.split()` -/
def split (space : Char → Bool) (s : List Char) : List (List Char) :=
  match h : s.dropWhile space with
  | [] => []
  | c :: cs => (c :: cs.takeWhile (fun x => ! space x)) :: split space (cs.dropWhile (fun x => ! space x))
termination_by s.length
decreasing_by
  have h1 := (List.dropWhile_suffix space (l := s)).length_le
  have h2 := (List.dropWhile_suffix (fun x => ! space x) (l := cs)).length_le
  rw [h] at h1
  simp only [List.length_cons] at h1
  omega

/-- `NominalReal(x, units)` (nominal_real.py:22-26) of a float -/
def nominal (env : Env) (x : Rat) (units : List Char) : Except PyErr Val := match env.parse units with
  | .error e => .error e
  | .ok u => .ok (.nominal x u)

/-- `NormalReal(mean, std, units)` (normal_real.py:25-28) -/
def normal (env : Env) (mean std : Rat) (units : List Char) : Except PyErr Val := match env.parse units with
  | .error e => .error e
  | .ok u => .ok (.normal mean std u)

/-- `float(s)` -/
def float (env : Env) (s : List Char) : Except PyErr Rat := match env.read s with
  | some x => .ok x
  | none => .error .valueError

/-- the unit (material_run_example.py:51-55): a ValueError or UndefinedUnitError is caught -/
def unit (env : Env) (s : List Char) : Except PyErr (List Char) := match env.parse s with
  | .error .valueError => .ok []
  | .error .undefinedUnit => .ok []
  | r => r

/-- `std` (material_run_example.py:47-49), `toks[2]` being an IndexError if there are but two words; at first it is -1 -/
def deviation (env : Env) (toks : List (List Char)) : Except PyErr Rat := match toks[1]? with
  | some w => if w = ['+', '-'] ∨ w = ['+', '/', '-'] then match toks[2]? with
      | some t => float env t
      | none => .error .indexError
    else .ok (-1)
  | none => .error .indexError

/-- a text of several words (material_run_example.py:44-60) -/
def parseWords (env : Env) (toks : List (List Char)) : Except PyErr Val := match toks[0]? with
  | none => .error .indexError
  | some t => match float env t with
    | .error e => .error e
    | .ok mean => match deviation env toks with
      | .error e => .error e
      | .ok std => match unit env (toks.getLastD []) with
        | .error e => .error e
        | .ok u => if 0 ≤ std then normal env mean std u else nominal env mean u

/-- `_parse_value(val)` (material_run_example.py:41-73) -/
def parseValue (env : Env) : Raw → Except PyErr Val
  | .num x => nominal env x []
  | .str s => if (split env.space s).length > 1 then parseWords env (split env.space s)
    else match env.read s with
      | some x => nominal env x []
      | none => .ok (.category s)
  | _ => .error .valueError

/-- `if x:` -/
def Raw.truthy : Raw → Bool
  | .none => false
  | .num x => decide (x ≠ 0)
  | .str s => ! s.isEmpty
  | .list l => ! l.isEmpty
  | .dict d => ! d.isEmpty

/-- the texts of a list; a TypeError if something else is in it (valid_list.py) -/
def texts : List Raw → Except PyErr (List (List Char))
  | [] => .ok []
  | .str s :: l => match texts l with
    | .error e => .error e
    | .ok r => .ok (s :: r)
  | _ :: _ => .error .typeError

/-- `x.tags = v` for a `v` that is true: `validate_list(v, str)` (setters.py:31-36); a dictionary is iterated by its keys -/
def asTags : Raw → Except PyErr (List (List Char))
  | .str s => .ok [s]
  | .list l => texts l
  | .dict d => .ok (d.map (fun p => p.1.toList))
  | _ => .error .typeError

/-- what is set of a run besides its links -/
structure Rec where
  uids : List (String × Raw) := []
  tags : List (List Char) := []
  properties : List (String × Val) := []
  conditions : List (String × Val) := []
  parameters : List (String × Val) := []

/-- the runs; the ids, tags and attributes of each; and the attribute `material_spec`, which is none of a run's own -/
structure St (L : Type) where
  heap : Heap L String
  data : Nat → Rec
  extra : Nat → Option (Arg L)

/-- change one record -/
def St.upd {L : Type} (st : St L) (o : Nat) (r : Rec) : St L := { st with data := fun i => if i = o then r else st.data i }

/-- `known_properties`, `known_conditions`, `known_parameters` (material_run_example.py:16-39): the names -/
def knownProperties : List String := ["density", "kinematic viscosity"]
def knownConditions : List String := ["temperature"]
def knownParameters : List String := ["knob_2_setting"]

/-- `set(known.keys()).intersection(experiment.keys())`, as it is iterated -/
def common (env : Env) (known : List String) (d : List (String × Raw)) : List String := env.order (known.filter (fun n => Dict.has d n))

/-- one of the three loops over names (material_run_example.py:99-121) -/
def attrs (env : Env) (d : List (String × Raw)) : List String → Except PyErr (List (String × Val))
  | [] => .ok []
  | n :: ns => match Dict.get? d n with
    | none => .error .keyError
    | some r => match parseValue env r with
      | .error e => .error e
      | .ok v => match attrs env d ns with
        | .error e => .error e
        | .ok l => .ok ((n, v) :: l)

/-- `d.get(key)`, set as an id with this scope if it is true (material_run_example.py:86-88, 123-125); nothing is checked of the id -/
def ids (d : List (String × Raw)) (key scope : String) : List (String × Raw) := match Dict.get? d key with
  | some r => if r.truthy then [(scope, r)] else []
  | none => []

/-- `d.get("tags")`, set if it is true (material_run_example.py:90-92, 127-129) -/
def tagsOf (d : List (String × Raw)) : Except PyErr (List (List Char)) := match Dict.get? d "tags" with
  | some r => if r.truthy then asTags r else .ok []
  | none => .ok []

/-- the record of a measurement -/
def record (env : Env) (d : List (String × Raw)) : Except PyErr Rec :=
  match attrs env d (common env knownProperties d) with
  | .error e => .error e
  | .ok ps => match attrs env d (common env knownConditions d) with
    | .error e => .error e
    | .ok cs => match attrs env d (common env knownParameters d) with
      | .error e => .error e
      | .ok qs => match tagsOf d with
        | .error e => .error e
        | .ok ts => .ok { uids := ids d "scan_id" "given_scan_id", tags := ts, properties := ps, conditions := cs, parameters := qs }

section
variable {L : Type} (env : Env) (same : Heap L String → Nat → Nat → Bool)

/-- one experiment (material_run_example.py:96-131); `.keys()` of what is no dictionary is an AttributeError -/
def addExperiment (st : St L) (o : Nat) : Raw → Except PyErr (St L)
  | .dict d => match record env d with
    | .error e => .error e
    | .ok r => match construct same st.heap .measurementRun { name := some "Measurement Run" } with
      | (_, .error e) => .error e
      | (h, .ok _) => match setOwner same h st.heap.next (.obj o) with
        | (_, .error e) => .error e
        | (h, .ok _) => .ok ({ st with heap := h }.upd st.heap.next r)
  | _ => .error .attributeError

/-- the loop over the experiments -/
def addExperiments (o : Nat) : St L → List Raw → Except PyErr (St L)
  | st, [] => .ok st
  | st, r :: rs => match addExperiment env same st o r with
    | .error e => .error e
    | .ok st => addExperiments o st rs

/-- `data.get("experiments", [])`, iterated: a text by characters, a dictionary by keys -/
def experiments (d : List (String × Raw)) : Except PyErr (List Raw) := match Dict.get? d "experiments" with
  | none => .ok []
  | some (.list l) => .ok l
  | some (.str s) => .ok (s.map (fun c => .str [c]))
  | some (.dict d) => .ok (d.map (fun p => .str p.1.toList))
  | some _ => .error .typeError

/-- `if material_spec: material.material_spec = material_spec` (material_run_example.py:131-132), which makes a new attribute: a run has its spec in `spec` -/
def St.giveSpec (st : St L) (o : Nat) : Arg L → St L
  | .none => st
  | a => { st with extra := fun i => if i = o then some a else st.extra i }

/-- `if process_run: material.process = process_run` (material_run_example.py:134-135); `other` is something that counts as true -/
def giveProcess (st : St L) (o : Nat) : Arg L → Except PyErr (St L)
  | .none => .ok st
  | p => match setProcess st.heap o p with
    | (_, .error e) => .error e
    | (h, .ok _) => .ok { st with heap := h }

/-- a dictionary (material_run_example.py:84-137), making a new run, whose number is that of the next object. If an exception is raised nothing refers to the new objects. -/
def ingestDict (st : St L) (spec process : Arg L) (d : List (String × Raw)) : Except PyErr (St L) :=
  match construct same st.heap .materialRun { name := some "Material Run" } with
  | (_, .error e) => .error e
  | (h, .ok _) => match tagsOf d with
    | .error e => .error e
    | .ok ts => match experiments d with
      | .error e => .error e
      | .ok es => match addExperiments env same st.heap.next ({ st with heap := h }.upd st.heap.next { uids := ids d "sample_id" "given_sample_id", tags := ts }) es with
        | .error e => .error e
        | .ok st' => giveProcess (st'.giveSpec st.heap.next spec) st.heap.next process

/-- what is returned: a run, or a list -/
inductive Res where
  | run (o : Nat)
  | many (l : List Res)

mutual
/-- `ingest_material_run(data, material_spec, process_run)` (material_run_example.py:76-137). The process is not handed on to the members of a list (line 79). -/
def ingest (st : St L) (spec process : Arg L) : Raw → Except PyErr (Res × St L)
  | .list l => match ingestAll st spec l with
    | .error e => .error e
    | .ok (rs, st) => .ok (.many rs, st)
  | .dict d => match ingestDict env same st spec process d with
    | .error e => .error e
    | .ok st' => .ok (.run st.heap.next, st')
  | _ => .error .valueError
/-- the members of a list -/
def ingestAll (st : St L) (spec : Arg L) : List Raw → Except PyErr (List Res × St L)
  | [] => .ok ([], st)
  | r :: rs => match ingest st spec .none r with
    | .error e => .error e
    | .ok (x, st) => match ingestAll st spec rs with
      | .error e => .error e
      | .ok (xs, st) => .ok (x :: xs, st)
end

/-! ## Tables -/

/-- `NominalReal(row[name], '')` of a cell; `none` is what is neither an int nor a float: AssertionError, after the units have been parsed -/
def cell (env : Env) : Option Rat → Except PyErr Val
  | some x => nominal env x []
  | none => match env.parse [] with
    | .error e => .error e
    | .ok _ => .error .assertionError

/-- `if name in row:` ... (table_example.py:16-23) -/
def cellOf (row : List (String × Option Rat)) (n : String) : Except PyErr (List (String × Val)) := match Dict.get? row n with
  | none => .ok []
  | some c => match cell env c with
    | .error e => .error e
    | .ok v => .ok [(n, v)]

/-- one row (table_example.py:14-24): the state after it and the outcome -/
def addRow (st : St L) (o : Arg L) (row : List (String × Option Rat)) : St L × Except PyErr Unit :=
  match cellOf env row "vapor pressure" with
  | .error e => (st, .error e)
  | .ok ps => match cellOf env row "temperature" with
    | .error e => (st, .error e)
    | .ok cs => match construct same st.heap .measurementRun { name := some "Material Run" } with
      | (h, .error e) => ({ st with heap := h }, .error e)
      | (h, .ok _) => match setOwner same h st.heap.next o with
        | (h, .error e) => ({ st with heap := h }, .error e)
        | (h, .ok _) => ({ st with heap := h }.upd st.heap.next { properties := ps, conditions := cs }, .ok ())

/-- `ingest_table(material_run, table)` (table_example.py:11-26): the rows in order -/
def ingestTable (o : Arg L) : St L → List (List (String × Option Rat)) → St L × Except PyErr Unit
  | st, [] => (st, .ok ())
  | st, row :: rows => match addRow env same st o row with
    | (st, .error e) => (st, .error e)
    | (st, .ok _) => ingestTable o st rows
end

end Verif.Ingest
