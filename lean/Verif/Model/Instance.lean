import Verif.Model.Schema
/-!
# Model of `make_instance` (gemd/entity/util.py:9-67)

The memory holds specs and runs; `seen` maps the number of a spec (for `id(spec)`) to that of its run. Python's recursion limit is not modelled; `fuel` bounds the depth of
the recursion (`none` when it is used up), and the theorems say how much of it is enough.
-/

namespace Verif.Instance
open Verif.Py Verif.Value Verif.Schema

/-- an attribute of an entity -/
def peek (m : Mem) (o : Nat) (attr : String) : Option V := match m[o]? with
  | some x => Dict.get? x.fields attr
  | none => none

/-- the memory and `seen` -/
structure St where
  mem : Mem
  seen : Dict Nat Nat

/-- the setter of `MaterialRun.process` (material_run.py:75-87): what is in memory afterwards and what is raised -/
def setMaterialProcess (m : Mem) (r : Nat) (v : V) : Mem × Except PyErr Unit :=
  let m1 := match peek m r "_process" with
    | some (.ref q) => if isCls m [.processRun] (.ref q) then setField m q "_output_material" (fun _ => .none) else m
    | _ => m
  match v with
  | .none => (setField m1 r "_process" (fun _ => .none), .ok ())
  | .link s i => (setField m1 r "_process" (fun _ => .link s i), .ok ())
  | .ref q => if isCls m1 [.processRun] (.ref q) then (setField (setField m1 q "_output_material" (fun _ => .ref r)) r "_process" (fun _ => .ref q), .ok ())
    else (m1, .error .typeError)
  | _ => (m1, .error .typeError)

/-- `l.remove(self)`; which element is removed depends on `==`, so that is left open: `remove m r l` is what remains, if anything is removed -/
abbrev Remove := Mem → Nat → List V → Option (List V)

/-- `self._process.ingredients.remove(self)` (ingredient_run.py:126-128) -/
def removeIngredient (remove : Remove) (m : Mem) (r : Nat) : Mem × Except PyErr Unit := match peek m r "_process" with
  | some (.ref q) => if isCls m [.processRun] (.ref q) then match peek m q "_ingredients" with
      | some (.list l) => match remove m r l with
        | some l' => (setField m q "_ingredients" (fun _ => .list l'), .ok ())
        | none => (m, .error .valueError)
      | _ => (m, .error .attributeError)
    else (m, .ok ())
  | _ => (m, .ok ())

/-- the setter of `IngredientRun.process` (ingredient_run.py:124-136) -/
def setIngredientProcess (remove : Remove) (m : Mem) (r : Nat) (v : V) : Mem × Except PyErr Unit := match removeIngredient remove m r with
  | (m1, .error e) => (m1, .error e)
  | (m1, .ok _) => match v with
    | .none => (setField m1 r "_process" (fun _ => .none), .ok ())
    | .link s i => (setField m1 r "_process" (fun _ => .link s i), .ok ())
    | .ref q => if isCls m1 [.processRun] (.ref q) then (setField (setField m1 r "_process" (fun _ => .ref q)) q "_ingredients" (appendTo (.ref r)), .ok ())
      else (m1, .error .typeError)
    | _ => (m1, .error .typeError)

/-- the setter of `IngredientRun.material` (ingredient_run.py:109-117) -/
def setIngredientMaterial (m : Mem) (r : Nat) (v : V) : Mem × Except PyErr Unit := match v with
  | .none => (setField m r "_material" (fun _ => .none), .ok ())
  | .link s i => (setField m r "_material" (fun _ => .link s i), .ok ())
  | .ref q => if isCls m [.materialRun] (.ref q) then (setField m r "_material" (fun _ => .ref q), .ok ()) else (m, .error .typeError)
  | _ => (m, .error .typeError)

/-- `seen[id(spec)] = XRun(...)` -/
def create (env : Env) (c : ECls) (kwargs : List (String × V)) (o : Nat) (s : St) : Except PyErr Nat × St := match constructE env s.mem c kwargs with
  | .ok (r, m') => (.ok r, ⟨m', Dict.set s.seen o r⟩)
  | .error e => (.error e, s)

/-- what a recursive call does: `none` if it does not end -/
abbrev Rec := V → St → Option (Except PyErr Nat × St)

/-- `crawler(v) if v else None`: no spec and no link is falsy -/
def crawlIf (call : Rec) (v : V) (s : St) : Option (Except PyErr V × St) := match v with
  | .none => some (.ok .none, s)
  | v => match call v s with
    | none => none
    | some (.error e, s1) => some (.error e, s1)
    | some (.ok r, s1) => some (.ok (.ref r), s1)

/-- lines 48 and 51: `run.attr = crawler(spec.attr) if spec.attr else None` -/
def crawlSet (call : Rec) (set : Mem → Nat → V → Mem × Except PyErr Unit) (r : Nat) (v : V) (s : St) : Option (Except PyErr Nat × St) := match crawlIf call v s with
  | none => none
  | some (.error e, s1) => some (.error e, s1)
  | some (.ok w, s1) => match set s1.mem r w with
    | (m2, .error e) => some (.error e, ⟨m2, s1.seen⟩)
    | (m2, .ok _) => some (.ok r, ⟨m2, s1.seen⟩)

/-- lines 57-58: `for x in spec.ingredients: crawler(x).process = run`. An element whose run is not an ingredient run is not modelled: `other`. -/
def crawlAll (remove : Remove) (call : Rec) (r : Nat) : List V → St → Option (Except PyErr Nat × St)
  | [], s => some (.ok r, s)
  | v :: vs, s => match call v s with
    | none => none
    | some (.error e, s1) => some (.error e, s1)
    | some (.ok t, s1) => if isCls s1.mem [.ingredientRun] (.ref t) then
        match setIngredientProcess remove s1.mem t (.ref r) with
        | (m2, .error e) => some (.error e, ⟨m2, s1.seen⟩)
        | (m2, .ok _) => crawlAll remove call r vs ⟨m2, s1.seen⟩
      else some (.error .other, s1)

/-- `spec.attr` -/
def getD (x : EObj) (attr : String) : V := (Dict.get? x.fields attr).getD .none

/-- lines 38-64, for a spec that was not seen -/
def crawlNew (env : Env) (remove : Remove) (call : Rec) (o : Nat) (x : EObj) (s : St) : Option (Except PyErr Nat × St) := match x.cls with
  | .measurementSpec => some (create env .measurementRun [("name", getD x "_name"), ("spec", .ref o)] o s)
  | .materialSpec => match create env .materialRun [("name", getD x "_name"), ("spec", .ref o)] o s with
    | (.error e, s1) => some (.error e, s1)
    | (.ok r, s1) => crawlSet call setMaterialProcess r (getD x "_process") s1
  | .ingredientSpec => match create env .ingredientRun [("spec", .ref o)] o s with
    | (.error e, s1) => some (.error e, s1)
    | (.ok r, s1) => crawlSet call setIngredientMaterial r (getD x "_material") s1
  | .processSpec => match create env .processRun [("name", getD x "_name"), ("spec", .ref o)] o s with
    | (.error e, s1) => some (.error e, s1)
    | (.ok r, s1) => crawlAll remove call r (members (getD x "_ingredients")) s1
  | _ => some (.error .typeError, s)

/-- `crawler(spec)` (lines 27-65) -/
def crawler (env : Env) (remove : Remove) : Nat → V → St → Option (Except PyErr Nat × St)
  | 0, _, _ => none
  | n + 1, v, s => match v with
    | .ref o => match Dict.get? s.seen o with
      | some r => some (.ok r, s)
      | none => match s.mem[o]? with
        | some x => crawlNew env remove (crawler env remove n) o x s
        | none => some (.error .other, s)
    | _ => some (.error .typeError, s)

/-- `make_instance(base_spec)`: the run and the memory afterwards -/
def makeInstance (env : Env) (remove : Remove) (fuel : Nat) (v : V) (m : Mem) : Option (Except PyErr Nat × Mem) :=
  (crawler env remove fuel v ⟨m, []⟩).map fun p => (p.1, p.2.mem)

end Verif.Instance
