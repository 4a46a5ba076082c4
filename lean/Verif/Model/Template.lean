import Verif.Model.Attribute
import Verif.Model.ValidList
/-!
# Model of object templates' attribute lists and of the template check of objects

`template/base_template.py`, `template/has_{condition,parameter,property}_templates.py`,
`object/has_template_check_generator.py`, `object/has_{conditions,parameters,properties}.py`, `object/has_template.py`,
`object/has_spec.py`.
-/

set_option linter.unusedSectionVars false
set_option linter.dupNamespace false

namespace Verif.Template
open Verif.Py Verif.Bounds Verif.Level

variable {U D α S P : Type} [LinearOrder α] [DecidableEq U] [DecidableEq D] [DecidableEq S]

/-- which of the three attribute classes -/
inductive AKind where
  | condition | parameter | property
  deriving DecidableEq

/-- an attribute template (attribute_template.py:33-54): identity, class, name, bounds. Its fields may be reassigned in
Python; here a template is a snapshot. -/
structure ATmpl (U α S : Type) where
  id : Nat
  kind : AKind
  name : S
  bounds : Bounds U α S

/-- an attribute template or a LinkByUID -/
inductive Ref (U α S : Type) where
  | tmpl (t : ATmpl U α S)
  | link (scope id : S)

/-! ## Attribute lists of object templates -/

/-- an atom that may occur in what the caller hands over -/
inductive Elt (U α S : Type) where
  | ref (r : Ref U α S)
  | bounds (b : Bounds U α S)
  | none
  | other      -- any other object, including nested lists

/-- an element of the attribute list, before or after homogenisation: an atom, or a list/tuple of atoms -/
inductive Item (U α S : Type) where
  | atom (e : Elt U α S)
  | seq (l : List (Elt U α S))

/-- `isinstance(x, (ConditionTemplate, LinkByUID, list, tuple))`: the content types of the list
(has_condition_templates.py:70, has_parameter_templates.py:70, has_property_templates.py:68) -/
def Item.ok (k : AKind) : Item U α S → Bool
  | .atom (.ref (.tmpl t)) => t.kind = k
  | .atom (.ref (.link ..)) => true
  | .seq _ => true
  | _ => false

/-- `BaseTemplate._homogenize_ranges` (base_template.py:43-80). Unpacking a sequence of another length than two raises
ValueError. -/
def homogenize (us : UnitSys U D α) : Item U α S → Except PyErr (Item U α S)
  | .atom (.ref r) => .ok (.seq [.ref r, .none])
  | .seq [first, second] =>
    match first, second with
    | .ref (.tmpl t), .bounds b =>
      match contains us t.bounds (.bounds b : Arg U α S Unit) with
      | .error e => .error e
      | .ok false => .error .valueError
      | .ok true => .ok (.seq [first, second])
    | .ref (.tmpl _), .none => .ok (.seq [first, second])
    | .ref (.link ..), .bounds _ => .ok (.seq [first, second])
    | .ref (.link ..), .none => .ok (.seq [first, second])
    | _, _ => .error .typeError
  | .seq _ => .error .valueError
  | .atom _ => .error .typeError

/-- content types and trigger of the list -/
def cfg (us : UnitSys U D α) (k : AKind) : VList.Cfg (Item U α S) Unit :=
  { ok := Item.ok k, trigger := some (fun w i => (w, (homogenize us i).map some)) }

/-- the argument of the setter: None, a single non-iterable object or string, a list or tuple, another re-iterable
container (set, dict, ...), a one-shot iterator -/
inductive SetArg (U α S : Type) where
  | none
  | single (e : Elt U α S)
  | listOrTuple (l : List (Item U α S))
  | container (l : List (Item U α S))
  | oneShot (l : List (Item U α S))

def Item.isBounds : Item U α S → Bool
  | .atom (.bounds _) => true
  | _ => false

/-- an element seen as an atom of an enclosing list: a nested list is "other" -/
def Item.toElt : Item U α S → Elt U α S
  | .atom e => e
  | .seq _ => .other

/-- the three setters (has_condition_templates.py:66-72, has_parameter_templates.py:66-72, has_property_templates.py:64-70).
The `any(...)` test iterates over the argument before `validate_list` does, so a one-shot iterator is used up (entirely, or
up to and including the first bounds). A string is an iterable of strings, and `validate_list` treats it as one element: it
is `single .other` here. -/
def setList (us : UnitSys U D α) (k : AKind) (arg : SetArg U α S) : Except PyErr (List (Item U α S)) :=
  match arg with
  | .none => (VList.validateList (cfg us k) () .none).2
  | .single e => (VList.validateList (cfg us k) () (.single (.atom e))).2
  | .listOrTuple l =>
    if l.any Item.isBounds then (VList.validateList (cfg us k) () (.iter (.seq [.seq (l.map Item.toElt)]))).2
    else (VList.validateList (cfg us k) () (.iter (.seq l))).2
  | .container l =>
    if l.any Item.isBounds then (VList.validateList (cfg us k) () (.iter (.seq [.atom .other]))).2
    else (VList.validateList (cfg us k) () (.iter (.seq l))).2
  | .oneShot l =>
    if l.any Item.isBounds then (VList.validateList (cfg us k) () (.iter (.seq [.atom .other]))).2
    else (VList.validateList (cfg us k) () (.iter (.oneShot []))).2

/-! ## The template check of objects -/

/-- an attribute as the check sees it: template, name, value. For PropertyAndConditions it is the property's
(has_property_templates.py:74-76). -/
structure Attr (U α S P : Type) where
  template : Option (Ref U α S)
  name : S
  value : Option (Value U α S P)

/-- an entry `[attribute template or link, bounds or None]` of an object template -/
abbrev Entry (U α S : Type) := Ref U α S × Option (Bounds U α S)

/-- `next((x for x in self.conditions if condition.name == x[0].name), (None, None))`
(has_condition_templates.py:80-81 etc.): a LinkByUID has no `name`, so reaching one raises AttributeError. -/
def findByName (name : S) : List (Entry U α S) → Except PyErr (Option (Entry U α S))
  | [] => .ok none
  | (.link .., _) :: _ => .error .attributeError
  | (.tmpl t, b) :: rest => if name = t.name then .ok (some (.tmpl t, b)) else findByName name rest

/-- an attribute value as argument of `contains` -/
def valueArg (v : Option (Value U α S P)) : Arg U α S P :=
  match v with
  | none => .none
  | some v => .value v

/-- `validate_condition` / `validate_parameter` / `validate_property` (has_condition_templates.py:74-88,
has_parameter_templates.py:74-88, has_property_templates.py:72-90). `eqv` is Python's `==` between references. -/
def validate (us : UnitSys U D α) (eqv : Ref U α S → Ref U α S → Bool) (k : AKind) (entries : List (Entry U α S))
    (a : Attr U α S P) : Except PyErr Bool :=
  let found : Except PyErr (Option (Entry U α S)) :=
    match a.template with
    | some t => .ok (entries.find? (fun x => eqv t x.1))
    | none => findByName a.name entries
  match found with
  | .error e => .error e
  | .ok none => .ok true
  | .ok (some (_, some b)) => contains us b (valueArg a.value)
  | .ok (some (.tmpl t, none)) => if t.kind = k then contains us t.bounds (valueArg a.value) else .ok true
  | .ok (some (.link .., none)) => .ok true

/-- the template of an object: None, a link, or an object template, of which only the list of the kind in question matters -/
inductive OTmpl (U α S : Type) where
  | none | link | obj (entries : List (Entry U α S))

/-- world seen by the check: the object's current template, the validation level, warnings logged so far -/
structure World (U α S : Type) where
  template : OTmpl U α S
  level : Level
  warnings : Nat

/-- `template_check` (has_template_check_generator.py:77-91); the introspection at 59-75 picks `validate`'s class and is not
modelled. -/
def templateCheck (us : UnitSys U D α) (eqv : Ref U α S → Ref U α S → Bool) (k : AKind)
    (w : World U α S) (a : Attr U α S P) : World U α S × Except PyErr (Option (Attr U α S P)) :=
  if w.level = .ignore then (w, .ok none)
  else
    match w.template with
    | .obj entries =>
      match validate us eqv k entries a with
      | .error e => (w, .error e)
      | .ok true => (w, .ok none)
      | .ok false =>
        if w.level = .warning then ({ w with warnings := w.warnings + 1 }, .ok none) else (w, .error .valueError)
    | _ => (w, .ok none)

/-- the attribute list of an object (has_conditions.py:28-32 and siblings; material_spec.py:80-85). `none` elements stand for
objects of the wrong class. -/
def attrCfg (us : UnitSys U D α) (eqv : Ref U α S → Ref U α S → Bool) (k : AKind) :
    VList.Cfg (Option (Attr U α S P)) (World U α S) :=
  { ok := Option.isSome,
    trigger := some (fun w a => match a with
      | none => (w, .ok none)
      | some a => match templateCheck us eqv k w a with
        | (w', .error e) => (w', .error e)
        | (w', .ok _) => (w', .ok none)) }

/-- an object: its template (its own, has_template.py:30-43, or its spec's, has_spec.py:41-47) and one attribute list -/
structure Obj (U α S P : Type) where
  template : OTmpl U α S
  attrs : List (Option (Attr U α S P))

/-- what may be done to it -/
inductive Op (U α S P : Type) where
  | setTemplate (t : OTmpl U α S)   -- `template` setter; stores without looking at the attributes
  | setAttrs (a : VList.ListArg (Option (Attr U α S P)))
  | listOp (o : VList.Op (Option (Attr U α S P)))

/-- one step at a level: object after, warnings logged, outcome -/
def step (us : UnitSys U D α) (eqv : Ref U α S → Ref U α S → Bool) (k : AKind) (level : Level) (s : Obj U α S P) :
    Op U α S P → Obj U α S P × Nat × Except PyErr Unit
  | .setTemplate t => ({ s with template := t }, 0, .ok ())
  | .setAttrs a =>
    match VList.validateList (attrCfg us eqv k) { template := s.template, level := level, warnings := 0 } a with
    | (w, .ok l) => ({ s with attrs := l }, w.warnings, .ok ())
    | (w, .error e) => (s, w.warnings, .error e)
  | .listOp o =>
    match VList.step (attrCfg us eqv k) { template := s.template, level := level, warnings := 0 } s.attrs o with
    | (w, l, r) => ({ s with attrs := l }, w.warnings, r)

/-- a history at FATAL -/
def runFatal (us : UnitSys U D α) (eqv : Ref U α S → Ref U α S → Bool) (k : AKind) (s : Obj U α S P) :
    List (Op U α S P) → Obj U α S P
  | [] => s
  | o :: os => runFatal us eqv k (step us eqv k .fatal s o).1 os

end Verif.Template
