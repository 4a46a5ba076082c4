import Verif.Model.MakeValue
import Verif.Props.Attribute
import Verif.Props.Strings
/-!
# C51: make_value and make_attribute
-/

set_option linter.unusedSectionVars false
set_option linter.unusedSimpArgs false
set_option linter.unusedVariables false

namespace Verif.MakeValue
open Verif.Py Verif.Bounds Verif.Level Verif.Attr Verif.Strings

variable {U D α P : Type} [LinearOrder α] [DecidableEq U] [DecidableEq D]

/-! ### Specification -/

/-- the value holds what was given: the number as a float, the integer equal to it, or the string itself -/
inductive Holds (fl : Floats α) : Prim α → Made U α → Prop where
  | realInt {n : Int} {x : α} {u : U} : fl.ofInt n = .ok x → Holds fl (.int n) (.nominalReal (some x) u)
  | realFloat {x : RealArg α} {u : U} : Holds fl (.float x) (.nominalReal x u)
  | intInt {n : Int} : Holds fl (.int n) (.nominalInteger n)
  | intFloat {x : α} {n : Int} : fl.toInt x = some n → Holds fl (.float (some x)) (.nominalInteger n)
  | category {s : List Char} : Holds fl (.str s) (.nominalCategorical (some s))
  | formula {s : List Char} : Holds fl (.str s) (.empiricalFormula (some s))
  | inchi {s : List Char} : (∃ t, s = inchiPrefix ++ t) → Holds fl (.str s) (.inchi (some s))
  | smiles {s : List Char} : (¬ ∃ t, s = inchiPrefix ++ t) → Holds fl (.str s) (.smiles (some s))
  | noCategory : Holds fl .none (.nominalCategorical none)
  | noFormula : Holds fl .none (.empiricalFormula none)
  | noSmiles : Holds fl .none (.smiles none)

/-- the kind of a value -/
def Made.kind : Made U α → Verif.Bounds.Kind
  | .nominalReal .. => .real
  | .nominalInteger _ => .int
  | .nominalCategorical _ => .cat
  | .empiricalFormula _ => .comp
  | .inchi _ => .mol
  | .smiles _ => .mol

/-- the units of a value -/
def Made.units : Made U α → Option U
  | .nominalReal _ u => some u
  | _ => none

/-- what is accepted for bounds of some kind -/
def Acceptable (fl : Floats α) (parse : U → Except PyErr U) (table : List (List Char)) (p : Prim α) : Bounds U α (List Char) → Prop
  | .real b => (∃ u, parse b.units = .ok u) ∧ ((∃ n x, p = .int n ∧ fl.ofInt n = .ok x) ∨ ∃ x, p = .float x)
  | .int _ => (∃ n, p = .int n) ∨ ∃ x n, p = .float (some x) ∧ fl.toInt x = some n
  | .cat _ => p = .none ∨ ∃ s, p = .str s
  | .comp _ => p = .none ∨ ∃ s, p = .str s ∧ ∀ tok, IsToken s tok → tok ∈ table
  | .mol => p = .none ∨ ∃ s, p = .str s

/-! ### Proofs -/

/-- a string that begins with "InChI=" is kept as it is -/
theorem setInchi_prefix {s t : List Char} (h : s = inchiPrefix ++ t) (st : Option (List Char)) : setInchi st (.str s) = (some s, .ok ()) := by
  subst h
  have h1 : lowerStartsWith ['1', 's', '/'] (inchiPrefix ++ t) = false := rfl
  have h2 : lowerStartsWith ['i', 'n', 'c', 'h', 'i'] (inchiPrefix ++ t) = true := rfl
  have h3 : ['I', 'n', 'C', 'h', 'I'].isPrefixOf (inchiPrefix ++ t) = true := rfl
  simp only [setInchi, h1, h2, h3, Bool.not_true, Bool.false_eq_true, if_false]

theorem prefix_iff (s : List Char) : inchiPrefix.isPrefixOf s = true ↔ ∃ t, s = inchiPrefix ++ t := by
  rw [List.isPrefixOf_iff_prefix]
  exact ⟨fun ⟨t, h⟩ => ⟨t, h.symm⟩, fun ⟨t, h⟩ => ⟨t, h.symm⟩⟩

/-- C51, `make_value`. It succeeds exactly on what is acceptable for the bounds; the value then is of the kind of the bounds, holds what was given, and has the units of the
bounds (as `parse_units` writes them). -/
theorem C51_make_value (fl : Floats α) (parse : U → Except PyErr U) (table : List (List Char)) (p : Prim α) (b : Bounds U α (List Char)) :
    (Acceptable fl parse table p b → ∃ v, makeValue fl parse table p (some b) = .ok v ∧ v.kind = kind b ∧ Holds fl p v ∧
      (∀ r, b = .real r → ∃ u, parse r.units = .ok u ∧ v.units = some u)) ∧
    (¬ Acceptable fl parse table p b → ∃ e, makeValue fl parse table p (some b) = .error e) := by
  cases b with
  | real b =>
    simp only [Acceptable, makeValue, nominalReal]
    cases hu : parse b.units with
    | error e =>
      refine ⟨?_, fun _ => ⟨e, rfl⟩⟩
      rintro ⟨⟨u, h⟩, _⟩
      cases h
    | ok u =>
      have hr : ∀ r, (Bounds.real b : Bounds U α (List Char)) = .real r → ∃ u', parse r.units = .ok u' ∧ some u = some u' := by
        intro r h
        cases h
        exact ⟨u, hu, rfl⟩
      constructor
      · rintro ⟨_, ⟨n, x, rfl, h⟩ | ⟨x, rfl⟩⟩
        · exact ⟨_, by simp only [h], rfl, .realInt h, hr⟩
        · exact ⟨_, rfl, rfl, .realFloat, hr⟩
      · intro hn
        cases p with
        | int n => cases h : fl.ofInt n with
          | ok x => exact absurd ⟨⟨u, rfl⟩, .inl ⟨n, x, rfl, h⟩⟩ hn
          | error e => exact ⟨e, by simp only [h]⟩
        | float x => exact absurd ⟨⟨u, rfl⟩, .inr ⟨x, rfl⟩⟩ hn
        | _ => exact ⟨_, rfl⟩
  | int b =>
    simp only [Acceptable, makeValue]
    constructor
    · rintro (⟨n, rfl⟩ | ⟨x, n, rfl, h⟩)
      · exact ⟨_, rfl, rfl, .intInt, fun _ h => by cases h⟩
      · exact ⟨_, by simp only [nominalInteger, h], rfl, .intFloat h, fun _ h => by cases h⟩
    · intro hn
      cases p with
      | int n => exact absurd (.inl ⟨n, rfl⟩) hn
      | float x => cases x with
        | none => exact ⟨_, rfl⟩
        | some x => cases h : fl.toInt x with
          | none => exact ⟨.typeError, by simp only [nominalInteger, h]⟩
          | some n => exact absurd (.inr ⟨x, n, rfl, h⟩) hn
      | _ => exact ⟨_, rfl⟩
  | cat l =>
    simp only [Acceptable, makeValue]
    constructor
    · rintro (rfl | ⟨s, rfl⟩)
      · exact ⟨_, rfl, rfl, .noCategory, fun _ h => by cases h⟩
      · exact ⟨_, rfl, rfl, .category, fun _ h => by cases h⟩
    · intro hn
      cases p with
      | none => exact absurd (.inl rfl) hn
      | str s => exact absurd (.inr ⟨s, rfl⟩) hn
      | _ => exact ⟨_, rfl⟩
  | comp l =>
    simp only [Acceptable, makeValue]
    constructor
    · rintro (rfl | ⟨s, rfl, h⟩)
      · exact ⟨_, rfl, rfl, .noFormula, fun _ h => by cases h⟩
      · exact ⟨_, by simp only [Prim.arg, (C19_accept_iff table none s).1 h, fresh], rfl, .formula, fun _ h => by cases h⟩
    · intro hn
      cases p with
      | none => exact absurd (.inl rfl) hn
      | str s =>
        by_cases h : ∀ tok, IsToken s tok → tok ∈ table
        · exact absurd (.inr ⟨s, rfl, h⟩) hn
        · exact ⟨_, by simp only [Prim.arg, (C19_accept_iff table none s).2.1 h, fresh]; rfl⟩
      | _ => exact ⟨_, rfl⟩
  | mol =>
    simp only [Acceptable, makeValue]
    constructor
    · rintro (rfl | ⟨s, rfl⟩)
      · exact ⟨_, rfl, rfl, .noSmiles, fun _ h => by cases h⟩
      · by_cases h : ∃ t, s = inchiPrefix ++ t
        · obtain ⟨t, ht⟩ := h
          refine ⟨.inchi (some s), ?_, rfl, .inchi ⟨t, ht⟩, fun _ h => by cases h⟩
          refine (if_pos ((prefix_iff s).2 ⟨t, ht⟩)).trans ?_
          simp only [Prim.arg, setInchi_prefix ht, fresh]
        · refine ⟨.smiles (some s), ?_, rfl, .smiles h, fun _ h => by cases h⟩
          exact if_neg (fun h' => h ((prefix_iff s).1 h'))
    · intro hn
      cases p with
      | none => exact absurd (.inl rfl) hn
      | str s => exact absurd (.inr ⟨s, rfl⟩) hn
      | _ => split <;> exact ⟨_, rfl⟩

/-- C51: anything that is not bounds is refused. -/
theorem C51_unknown_bounds (fl : Floats α) (parse : U → Except PyErr U) (table : List (List Char)) (p : Prim α) :
    makeValue fl parse table p (none : Option (Bounds U α (List Char))) = .error .valueError := rfl

theorem value_kind (v : Made U α) : valueKind (v.value : Value U α (List Char) P) = v.kind := by
  cases v <;> rfl

/-- `make_attribute`, given a value it uses -/
theorem makeAttribute_eq (fl : Floats α) (parse : U → Except PyErr U) (table : List (List Char)) (us : UnitSys U D α) (level : Level) (k : AKind) (name : List Char)
    (b : Bounds U α (List Char)) (v : ValueArg U α P) {w : Value U α (List Char) P} (h : valueFor fl parse table b v = .ok w) :
    makeAttribute fl parse table us level (.template k name b) v = match check us level b w with
      | (n, .ok _) => (n, .ok ⟨k, name, ⟨some w, .tmpl b⟩⟩)
      | (n, .error e) => (n, .error e) := by
  simp only [makeAttribute, h, mk, setValue, setTemplate]
  rcases check us level b w with ⟨n, _ | _⟩ <;> simp

/-- C51, `make_attribute`. The attribute is of the kind of the template and has its name and the template; its value is the value given, or what `make_value` makes, of the kind
of the template's bounds and holding what was given. -/
theorem C51_make_attribute (fl : Floats α) (parse : U → Except PyErr U) (table : List (List Char)) (us : UnitSys U D α) (level : Level) (k : AKind) (name : List Char)
    (b : Bounds U α (List Char)) (v : ValueArg U α P) (n : Nat) (a : MadeAttr U α P) (h : makeAttribute fl parse table us level (.template k name b) v = (n, .ok a)) :
    a.kind = k ∧ a.name = name ∧ a.attr.template = .tmpl b ∧ match v with
      | .value w => a.attr.value = some w
      | .prim p => ∃ w : Made U α, a.attr.value = some w.value ∧ w.kind = kind b ∧ Holds fl p w := by
  cases hv : valueFor fl parse table b v with
  | error e => simp [makeAttribute, hv] at h
  | ok w =>
    rw [makeAttribute_eq _ _ _ _ _ _ _ _ _ hv] at h
    rcases hc : check us level b w with ⟨n', e | u⟩
    · simp only [hc] at h
      cases h
    · simp only [hc] at h
      cases h
      refine ⟨rfl, rfl, rfl, ?_⟩
      cases v with
      | value w' =>
        cases hv
        rfl
      | prim p =>
        simp only [valueFor] at hv
        obtain ⟨h1, h2⟩ := C51_make_value fl parse table p b
        by_cases ha : Acceptable fl parse table p b
        · obtain ⟨x, e, h3, h4, _⟩ := h1 ha
          simp only [e] at hv
          cases hv
          exact ⟨x, rfl, h3, h4⟩
        · obtain ⟨e, he⟩ := h2 ha
          simp only [he] at hv
          cases hv

/-- C51 at FATAL: `make_attribute` succeeds exactly if the value, given or made, is complete, of the kind of the bounds, and stands for admitted outcomes only. -/
theorem C51_make_attribute_fatal (fl : Floats α) (parse : U → Except PyErr U) (table : List (List Char)) (us : UnitSys U D α) (hl : us.Lawful) (k : AKind) (name : List Char)
    (b : Bounds U α (List Char)) (v : ValueArg U α P) :
    (∀ n a, makeAttribute fl parse table us .fatal (.template k name b) v = (n, .ok a) → n = 0 ∧ ∃ w, a.attr.value = some w ∧ Complete w ∧ Fits us b w) ∧
    (∀ w, v = .value w → Complete w → Fits us b w → ∃ a, makeAttribute fl parse table us .fatal (.template k name b) v = (0, .ok a)) ∧
    (∀ (p : Prim α) (x : Made U α), v = .prim p → makeValue fl parse table p (some b) = .ok x → Complete (x.value : Value U α (List Char) P) →
      Fits us b (x.value : Value U α (List Char) P) → ∃ a, makeAttribute fl parse table us .fatal (.template k name b) v = (0, .ok a)) := by
  refine ⟨?_, ?_, ?_⟩
  · intro n a h
    cases hv : valueFor fl parse table b v with
    | error e => simp [makeAttribute, hv] at h
    | ok w =>
      rw [makeAttribute_eq _ _ _ _ _ _ _ _ _ hv] at h
      rcases hc : check us .fatal b w with ⟨n', e | u⟩
      · simp only [hc] at h
        cases h
      · simp only [hc] at h
        cases h
        obtain ⟨hc1, hf⟩ := check_fatal_ok us hl b w _ hc
        rw [(check_spec us hl b w .fatal).2.2.1 (by simp) hc1 hf] at hc
        cases hc
        exact ⟨rfl, w, rfl, hc1, hf⟩
  · rintro w rfl hc hf
    rw [makeAttribute_eq (w := w) (h := rfl), (check_spec us hl b w .fatal).2.2.1 (by simp) hc hf]
    exact ⟨_, rfl⟩
  · rintro p x rfl hx hc hf
    rw [makeAttribute_eq (w := x.value) (h := by simp only [valueFor, hx]), (check_spec us hl b x.value .fatal).2.2.1 (by simp) hc hf]
    exact ⟨_, rfl⟩

/-- C51: anything that is not an attribute template is refused. -/
theorem C51_unknown_template (fl : Floats α) (parse : U → Except PyErr U) (table : List (List Char)) (us : UnitSys U D α) (level : Level) (v : ValueArg U α P) :
    makeAttribute fl parse table us level .other v = (0, .error .valueError) := rfl

/-- C51 read literally is false of `make_attribute`: at WARNING a value of another kind than the template's bounds is used, with a warning. -/
theorem C51_given_value_counterexample (fl : Floats α) (parse : U → Except PyErr U) (table : List (List Char)) (us : UnitSys U D α) (k : AKind) (name : List Char)
    (l : List (List Char)) :
    makeAttribute fl parse table us .warning (.template k name (.cat l)) (.value (.smiles : Value U α (List Char) P)) =
      (1, .ok ⟨k, name, ⟨some .smiles, .tmpl (.cat l)⟩⟩) := by
  rw [makeAttribute_eq (w := .smiles) (h := rfl)]
  rfl

/-! ### Examples -/

/-- floats that are integers -/
def wholeFloats : Floats Int := ⟨fun n => .ok n, fun x => some x⟩

/-- InChI, SMILES and a formula are recognised; a formula with an unknown element is refused -/
example : makeValue (U := Unit) wholeFloats (fun u => .ok u) (allElements.map String.toList) (.str "InChI=1S/H2O/h1H2".toList) (some .mol) = .ok (.inchi (some "InChI=1S/H2O/h1H2".toList)) ∧
    makeValue (U := Unit) wholeFloats (fun u => .ok u) (allElements.map String.toList) (.str "CCO".toList) (some .mol) = .ok (.smiles (some "CCO".toList)) ∧
    makeValue (U := Unit) wholeFloats (fun u => .ok u) (allElements.map String.toList) (.str "NaCl".toList) (some (.comp [])) = .ok (.empiricalFormula (some "NaCl".toList)) ∧
    makeValue (U := Unit) wholeFloats (fun u => .ok u) (allElements.map String.toList) (.str "NaXx".toList) (some (.comp [])) = .error .valueError :=
  ⟨rfl, rfl, by decide +kernel, by decide +kernel⟩

/-- the hypotheses of `C51_make_attribute_fatal`, and both outcomes -/
example : ∃ us : UnitSys Unit Unit Int, us.Lawful ∧
    (∃ a, makeAttribute (P := Unit) wholeFloats (fun u => .ok u) [] us .fatal (.template .condition [] (.cat ["red".toList, "green".toList])) (.prim (.str "green".toList)) = (0, .ok a)) ∧
    makeAttribute (P := Unit) wholeFloats (fun u => .ok u) [] us .fatal (.template .condition [] (.cat ["red".toList])) (.prim (.str "blue".toList)) = (0, .error .valueError) := by
  refine ⟨⟨fun _ => (), fun _ x => x, fun _ x => x⟩, ⟨fun _ _ => rfl, fun _ _ => rfl, fun _ _ _ h => h⟩, ⟨_, rfl⟩, rfl⟩

end Verif.MakeValue
