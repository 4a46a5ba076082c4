import Verif.Model.Attribute
import Verif.Props.BoundsMore
/-!
# C22: attribute values respect their template's bounds. C24: ingredient quantities are checked
-/

set_option linter.unusedSectionVars false
set_option linter.unreachableTactic false
set_option linter.unusedTactic false
set_option linter.unusedSimpArgs false

namespace Verif.Attr
open Verif.Py Verif.Bounds Verif.Level

variable {U D α S P : Type} [LinearOrder α] [DecidableEq U] [DecidableEq D] [DecidableEq S]

/-! ## Specification -/

/-- the value is complete: it has its required content, and its integers are representable as floats (see C13) -/
def Complete (v : Value U α S P) : Prop := HasContent v ∧ IntsRepresentable v

/-- the value is of the kind of the bounds and every outcome it stands for is admitted by the bounds -/
def Fits (us : UnitSys U D α) (b : Bounds U α S) (v : Value U α S P) : Prop :=
  valueKind v = kind b ∧ ∀ o, Support us v o → Admits us b o

/-! ## Containment of a value, in these terms -/

theorem complete_of_bounds {v : Value U α S P} {b : Bounds U α S} (h : toBounds v = .ok b) : Complete v := by
  have real : ∀ {l u : RealArg α} {w : U} {r : RealB U α}, mkReal l u w = .ok r → ∃ x y, l = some x ∧ u = some y ∧ x ≤ y := by
    intro l u w r h
    cases l with
    | none => cases h
    | some x =>
      cases u with
      | none => rw [mkReal_none_right] at h; cases h
      | some y =>
        rw [mkReal_some] at h
        by_cases hlt : y < x
        · rw [if_pos hlt] at h; cases h
        · exact ⟨x, y, rfl, rfl, not_lt.mp hlt⟩
  cases v with
  | nominalReal x u => obtain ⟨r, hr, -⟩ := map_ok h; obtain ⟨a, b, ha, -⟩ := real hr; exact ⟨by simp [HasContent, ha], trivial⟩
  | normalReal x s u => obtain ⟨r, hr, -⟩ := map_ok h; obtain ⟨a, b, ha, -⟩ := real hr; exact ⟨by simp [HasContent, ha], trivial⟩
  | uniformReal x y u => obtain ⟨r, hr, -⟩ := map_ok h; exact ⟨real hr, trivial⟩
  | nominalInteger n => obtain ⟨r, hr, -⟩ := map_ok h; obtain ⟨-, -, h1, h2⟩ := mkInt_ok hr; exact ⟨trivial, h1⟩
  | uniformInteger l u =>
    obtain ⟨r, hr, -⟩ := map_ok h; obtain ⟨-, h0, h1, h2⟩ := mkInt_ok hr; exact ⟨h0, h1, h2⟩
  | nominalCategorical c => cases c with
    | none => cases h
    | some c => exact ⟨rfl, trivial⟩
  | discreteCategorical p => cases p with
    | none => cases h
    | some c => exact ⟨rfl, trivial⟩
  | nominalComposition p => exact ⟨trivial, trivial⟩
  | empiricalFormula p => cases p with
    | none => cases h
    | some c => exact ⟨rfl, trivial⟩
  | smiles => exact ⟨trivial, trivial⟩
  | inchi => exact ⟨trivial, trivial⟩

theorem contains_value (us : UnitSys U D α) (hl : us.Lawful) (b : Bounds U α S) (v : Value U α S P) :
    (Complete v → ∃ r, contains us b (.value v) = .ok r ∧ (r = true ↔ Fits us b v)) ∧
    (¬ Complete v → ∃ e, contains us b (.value v) = .error e) := by
  constructor
  · rintro ⟨hc, hi⟩
    obtain ⟨bv, hb⟩ := C12_has_bounds_partial v hc hi
    have hd : contains us b (.value v) = contains us b (.bounds bv : Arg U α S P) :=
      (C11_dispatch (P := P) us b).2.2.1 v bv hb
    refine ⟨containsB us b bv, by rw [hd]; rfl, ?_⟩
    have hval := toBounds_valid hb
    have hk := toBounds_kind hb
    have hs := C12_bounds_are_support us v bv hb
    constructor
    · intro h
      refine ⟨by rw [← hk, containsB_kind h], ?_⟩
      intro o ho
      have ho := (hs o).2 ho
      by_cases hkr : kind b = .real
      · obtain ⟨a, rfl⟩ := kind_real hkr
        have : kind bv = .real := by rw [← containsB_kind h]; rfl
        obtain ⟨c, rfl⟩ := kind_real this
        obtain ⟨r, hr, hi⟩ := C05_real_contains (S := S) (P := P) us hl a c hval
        rw [contains_bounds] at hr; injection hr with hr
        exact (hi.1 (hr ▸ h)).2 o ho
      · obtain ⟨r, hr, hi⟩ := C06_contains (P := P) us b bv hkr hval
        rw [contains_bounds] at hr; injection hr with hr
        exact (hi.1 (hr ▸ h)).2 o ho
    · rintro ⟨hkk, hadm⟩
      have hcomm : Commensurable us b bv := by
        rw [← hk] at hkk
        cases b with
        | real a =>
          obtain ⟨c, rfl⟩ := kind_real hkk
          have := hadm (.quantity (us.root c.units) (us.toRoot c.units c.lower))
            ((hs _).1 ⟨rfl, c.lower, le_refl _, hval, rfl⟩)
          exact this.1.symm
        | _ => cases bv <;> first | trivial | cases hkk | rfl
      have := (C12_smallest us hl v bv hb).2.2 b hcomm hadm
      rw [hd, contains_bounds] at this
      injection this
  · intro hn
    cases hb : toBounds v with
    | ok bv => exact absurd (complete_of_bounds hb) hn
    | error e => exact ⟨e, (C11_dispatch (P := P) us b).2.2.2.1 v e hb⟩

/-- what `check` does, in these terms -/
theorem check_spec (us : UnitSys U D α) (hl : us.Lawful) (b : Bounds U α S) (v : Value U α S P) (level : Level) :
    (level = .ignore → check us level b v = (0, .ok ())) ∧
    (level ≠ .ignore → ¬ Complete v → ∃ e, check us level b v = (0, .error e)) ∧
    (level ≠ .ignore → Complete v → Fits us b v → check us level b v = (0, .ok ())) ∧
    (level = .warning → Complete v → ¬ Fits us b v → check us level b v = (1, .ok ())) ∧
    (level = .fatal → Complete v → ¬ Fits us b v → check us level b v = (0, .error .valueError)) := by
  obtain ⟨h1, h2⟩ := contains_value us hl b v
  refine ⟨?_, ?_, ?_, ?_, ?_⟩
  · rintro rfl; simp [check]
  · intro hi hc
    obtain ⟨e, he⟩ := h2 hc
    exact ⟨e, by simp [check, hi, he]⟩
  · intro hi hc hf
    obtain ⟨r, hr, hiff⟩ := h1 hc
    have : r = true := hiff.2 hf
    subst this
    simp [check, hi, hr]
  · rintro rfl hc hf
    obtain ⟨r, hr, hiff⟩ := h1 hc
    have : r = false := by cases r <;> simp_all
    subst this
    simp [check, hr]
  · rintro rfl hc hf
    obtain ⟨r, hr, hiff⟩ := h1 hc
    have : r = false := by cases r <;> simp_all
    subst this
    simp [check, hr]

theorem check_fatal_ok (us : UnitSys U D α) (hl : us.Lawful) (b : Bounds U α S) (v : Value U α S P) (n : Nat)
    (h : check us .fatal b v = (n, .ok ())) : Complete v ∧ Fits us b v := by
  obtain ⟨-, h2, -, -, h5⟩ := check_spec us hl b v .fatal
  by_cases hc : Complete v
  · refine ⟨hc, ?_⟩
    by_cases hf : Fits us b v
    · exact hf
    · rw [h5 rfl hc hf] at h; simp at h
  · obtain ⟨e, he⟩ := h2 (by simp) hc
    rw [he] at h; simp at h

/-! ## C22 -/

/-- a value and a template object present together agree -/
def Agrees (us : UnitSys U D α) (s : Attr U α S P) : Prop :=
  ∀ v b, s.value = some v → s.template = .tmpl b → Complete v ∧ Fits us b v

theorem step_agrees (us : UnitSys U D α) (hl : us.Lawful) (s : Attr U α S P) (op : Op U α S P) (h : Agrees us s) :
    Agrees us (step us .fatal s op).1 := by
  cases op with
  | value a =>
    cases a with
    | none => intro v b hv; simp [step, setValue] at hv
    | other => exact h
    | value w =>
      simp only [step, setValue]
      cases ht : s.template with
      | none => intro v b hv hb; simp [ht] at hb
      | link => simpa using h
      | tmpl c =>
        simp only
        split
        · rename_i n hck
          intro v b hv hb
          simp only [Option.some.injEq] at hv
          simp only [ht, Tmpl.tmpl.injEq] at hb
          subst hv; subst hb
          exact check_fatal_ok us hl _ _ _ hck
        · exact h
  | template a =>
    cases a with
    | none => intro v b hv hb; simp [step, setTemplate] at hb
    | other => exact h
    | link => intro v b hv hb; simp [step, setTemplate] at hb
    | tmpl c =>
      simp only [step, setTemplate]
      cases hw : s.value with
      | none => intro v b hv hb; simp [hw] at hv
      | some w =>
        simp only
        split
        · rename_i n hck
          intro v b hv hb
          simp only [hw, Option.some.injEq] at hv
          simp only [Tmpl.tmpl.injEq] at hb
          subst hv; subst hb
          exact check_fatal_ok us hl _ _ _ hck
        · exact h

/-- C22 at FATAL. However an attribute was constructed and whatever assignments (accepted or refused) followed, a value and a
template object present together agree: the value is complete, of the kind of the bounds, and within them. -/
theorem C22_fatal_history (us : UnitSys U D α) (hl : us.Lawful) (v : ValArg U α S P) (t : TmplArg U α S)
    (n : Nat) (s : Attr U α S P) (h : mk us .fatal v t = (n, .ok s)) (ops : List (Op U α S P)) :
    Agrees us (run us s (ops.map (fun o => (.fatal, o)))) := by
  have h0 : Agrees us s := by
    have he : Agrees us ({ value := none, template := .none } : Attr U α S P) := by intro v b hv; cases hv
    have h1 := step_agrees us hl _ (.value v) he
    have h2 := step_agrees us hl _ (.template t) h1
    simp only [step] at h2
    unfold mk at h
    split at h
    · simp at h
    · rename_i s1 n1 hs1
      split at h
      · simp at h
      · rename_i s2 m hs2
        simp only [Prod.mk.injEq, Except.ok.injEq] at h
        rw [hs1] at h2
        simp only at h2
        rw [hs2] at h2
        rw [← h.2]; exact h2
  clear h
  induction ops generalizing s with
  | nil => exact h0
  | cons o ops ih => exact ih _ (step_agrees us hl s o h0)

/-- C22 at any level: a rejected assignment changes nothing and logs nothing. -/
theorem C22_rejected_unchanged (us : UnitSys U D α) (level : Level) (s : Attr U α S P) (op : Op U α S P) (e : PyErr)
    (h : (step us level s op).2.2 = .error e) : (step us level s op).1 = s := by
  cases op with
  | value a =>
    cases a <;> simp only [step, setValue] at h ⊢ <;> (repeat' split at h) <;> simp_all
  | template a =>
    cases a <;> simp only [step, setTemplate] at h ⊢ <;> (repeat' split at h) <;> simp_all

/-- C22 at WARNING, except for link templates and incomplete values: the assignment succeeds, stores what was given, and
warns exactly when value and template disagree. -/
theorem C22_warning_partial (us : UnitSys U D α) (hl : us.Lawful) (s : Attr U α S P) :
    (∀ v, s.template = .none → setValue us .warning s (.value v) = ({ s with value := some v }, 0, .ok ())) ∧
    (∀ v b, s.template = .tmpl b → Complete v → ∃ n, setValue us .warning s (.value v) = ({ s with value := some v }, n, .ok ()) ∧
      (n = 0 ∧ Fits us b v ∨ n = 1 ∧ ¬ Fits us b v)) ∧
    (∀ b, s.value = none → setTemplate us .warning s (.tmpl b) = ({ s with template := .tmpl b }, 0, .ok ())) ∧
    (∀ v b, s.value = some v → Complete v → ∃ n, setTemplate us .warning s (.tmpl b) = ({ s with template := .tmpl b }, n, .ok ()) ∧
      (n = 0 ∧ Fits us b v ∨ n = 1 ∧ ¬ Fits us b v)) := by
  refine ⟨fun v h => by simp [setValue, h], ?_, fun b h => by simp [setTemplate, h], ?_⟩
  · intro v b ht hc
    obtain ⟨-, -, h3, h4, -⟩ := check_spec us hl b v .warning
    by_cases hf : Fits us b v
    · exact ⟨0, by simp [setValue, ht, h3 (by simp) hc hf], Or.inl ⟨rfl, hf⟩⟩
    · exact ⟨1, by simp [setValue, ht, h4 rfl hc hf], Or.inr ⟨rfl, hf⟩⟩
  · intro v b ht hc
    obtain ⟨-, -, h3, h4, -⟩ := check_spec us hl b v .warning
    by_cases hf : Fits us b v
    · exact ⟨0, by simp [setTemplate, ht, h3 (by simp) hc hf], Or.inl ⟨rfl, hf⟩⟩
    · exact ⟨1, by simp [setTemplate, ht, h4 rfl hc hf], Or.inr ⟨rfl, hf⟩⟩

/-- C22 at FATAL, the positive side: an assignment that agrees is accepted silently, one that disagrees is refused with
ValueError. -/
theorem C22_fatal_decides (us : UnitSys U D α) (hl : us.Lawful) (s : Attr U α S P) (v : Value U α S P) (b : Bounds U α S)
    (hc : Complete v) :
    (s.template = .tmpl b →
      (Fits us b v → setValue us .fatal s (.value v) = ({ s with value := some v }, 0, .ok ())) ∧
      (¬ Fits us b v → setValue us .fatal s (.value v) = (s, 0, .error .valueError))) ∧
    (s.value = some v →
      (Fits us b v → setTemplate us .fatal s (.tmpl b) = ({ s with template := .tmpl b }, 0, .ok ())) ∧
      (¬ Fits us b v → setTemplate us .fatal s (.tmpl b) = (s, 0, .error .valueError))) := by
  obtain ⟨-, -, h3, -, h5⟩ := check_spec us hl b v .fatal
  refine ⟨fun ht => ⟨fun hf => ?_, fun hf => ?_⟩, fun ht => ⟨fun hf => ?_, fun hf => ?_⟩⟩
  · simp [setValue, ht, h3 (by simp) hc hf]
  · simp [setValue, ht, h5 rfl hc hf]
  · simp [setTemplate, ht, h3 (by simp) hc hf]
  · simp [setTemplate, ht, h5 rfl hc hf]

/-- C22 at IGNORE: every assignment of something of an accepted type succeeds silently and stores it, whatever is there. -/
theorem C22_ignore (us : UnitSys U D α) (s : Attr U α S P) :
    (∀ v, setValue us .ignore s (.value v) = ({ s with value := some v }, 0, .ok ())) ∧
    (∀ b, setTemplate us .ignore s (.tmpl b) = ({ s with template := .tmpl b }, 0, .ok ())) ∧
    setTemplate us .ignore s .link = ({ s with template := .link }, 0, .ok ()) := by
  refine ⟨fun v => ?_, fun b => ?_, rfl⟩
  · cases h : s.template <;> simp [setValue, h, check]
  · cases h : s.value <;> simp [setTemplate, h, check]

/-- C22, clearing and type errors: None is always accepted, objects of other types never, at every level. -/
theorem C22_none_other (us : UnitSys U D α) (level : Level) (s : Attr U α S P) :
    setValue us level s .none = ({ s with value := none }, 0, .ok ()) ∧
    setTemplate us level s .none = ({ s with template := .none }, 0, .ok ()) ∧
    setValue us level s .other = (s, 0, .error .typeError) ∧
    setTemplate us level s .other = (s, 0, .error .typeError) := ⟨rfl, rfl, rfl, rfl⟩

/-- C22 read literally is false (1): while the template is a link, assigning a value raises AttributeError, also at WARNING. -/
theorem C22_link_counterexample (us : UnitSys U D α) (v : Value U α S P) :
    setValue us .warning { value := none, template := .link } (.value v)
      = ({ value := none, template := .link }, 0, .error .attributeError) := by
  simp [setValue]

/-- C22 read literally is false (2): at WARNING a value without content raises instead of warning. -/
theorem C22_incomplete_counterexample (us : UnitSys U D α) (b : Bounds U α S) :
    setValue us .warning { value := none, template := .tmpl b } (.value (.nominalCategorical none : Value U α S P))
      = ({ value := none, template := .tmpl b }, 0, .error .valueError) := by
  have : contains us b (.value (.nominalCategorical none) : Arg U α S P) = .error .valueError := rfl
  simp [setValue, check, this]

/-! ## C24 -/

/-- a real value: dimensionless, and only outcomes between 0 and 1 -/
def IsFraction (us : UnitSys U D α) (k : Consts U α) (v : Value U α S P) : Prop :=
  HasContent v ∧ valueKind v = .real ∧
    ∀ o, Support us v o → ∃ x, k.zero ≤ x ∧ x ≤ k.one ∧ o = .quantity (us.root k.unitless) (us.toRoot k.unitless x)

theorem continuous_iff (v : Value U α S P) : isContinuous v = true ↔ valueKind v = .real := by
  cases v <;> simp [isContinuous, valueKind]

theorem fraction_iff (us : UnitSys U D α) (k : Consts U α) (v : Value U α S P) :
    IsFraction us k v ↔ Complete v ∧ Fits us (.real { lower := k.zero, upper := k.one, units := k.unitless }) v := by
  constructor
  · rintro ⟨hc, hk, h⟩
    refine ⟨⟨hc, ?_⟩, hk, ?_⟩
    · cases v <;> first | trivial | cases hk
    · intro o ho
      obtain ⟨x, h0, h1, rfl⟩ := h o ho
      exact ⟨rfl, x, h0, h1, rfl⟩
  · rintro ⟨⟨hc, -⟩, hk, h⟩
    refine ⟨hc, hk, ?_⟩
    intro o ho
    have := h o ho
    cases o with
    | quantity d r =>
      obtain ⟨rfl, x, h0, h1, rfl⟩ := this
      exact ⟨x, h0, h1, rfl⟩
    | _ => exact absurd this (by simp [Admits])

/-- C24, fractions at FATAL: accepted exactly when None or a dimensionless real value within [0, 1]; then stored as given;
otherwise nothing changes. -/
theorem C24_fraction_fatal (us : UnitSys U D α) (hl : us.Lawful) (k : Consts U α) (h01 : k.zero ≤ k.one)
    (s : Option (Value U α S P)) :
    setFraction us k .fatal s .none = (none, 0, .ok ()) ∧
    (∀ v, IsFraction us k v → setFraction us k .fatal s (.value v) = (some v, 0, .ok ())) ∧
    (∀ v, ¬ IsFraction us k v → ∃ e, setFraction us k .fatal s (.value v) = (s, 0, .error e)) ∧
    setFraction us k .fatal s .other = (s, 0, .error .typeError) := by
  have hm := mkReal_some (α := α) k.zero k.one k.unitless
  rw [if_neg (not_lt.mpr h01)] at hm
  refine ⟨rfl, ?_, ?_, rfl⟩
  · intro v hf
    have hcont := (continuous_iff v).2 hf.2.1
    obtain ⟨hc, hfit⟩ := (fraction_iff us k v).1 hf
    simp [setFraction, hcont, hm, (check_spec us hl _ v .fatal).2.2.1 (by simp) hc hfit]
  · intro v hf
    by_cases hcont : isContinuous v = true
    · rw [fraction_iff] at hf
      by_cases hc : Complete v
      · have hfit : ¬ Fits us _ v := fun h => hf ⟨hc, h⟩
        exact ⟨.valueError, by simp [setFraction, hcont, hm, (check_spec us hl _ v .fatal).2.2.2.2 rfl hc hfit]⟩
      · obtain ⟨e, he⟩ := (check_spec us hl (.real { lower := k.zero, upper := k.one, units := k.unitless }) v .fatal).2.1 (by simp) hc
        exact ⟨e, by simp [setFraction, hcont, hm, he]⟩
    · exact ⟨.typeError, by simp [setFraction, hcont]⟩

/-- C24, fractions at the other levels: any complete real value is stored; WARNING warns exactly when it is not a fraction. -/
theorem C24_fraction_warning (us : UnitSys U D α) (hl : us.Lawful) (k : Consts U α) (h01 : k.zero ≤ k.one)
    (s : Option (Value U α S P)) (v : Value U α S P) (hk : valueKind v = .real) (hc : HasContent v) :
    (∃ n, setFraction us k .warning s (.value v) = (some v, n, .ok ()) ∧ (n = 0 ∧ IsFraction us k v ∨ n = 1 ∧ ¬ IsFraction us k v)) ∧
    setFraction us k .ignore s (.value v) = (some v, 0, .ok ()) := by
  have hm := mkReal_some (α := α) k.zero k.one k.unitless
  rw [if_neg (not_lt.mpr h01)] at hm
  have hcont := (continuous_iff v).2 hk
  have hC : Complete v := ⟨hc, by cases v <;> first | trivial | cases hk⟩
  constructor
  · obtain ⟨-, -, h3, h4, -⟩ := check_spec us hl (.real { lower := k.zero, upper := k.one, units := k.unitless }) v .warning
    by_cases hf : IsFraction us k v
    · exact ⟨0, by simp [setFraction, hcont, hm, h3 (by simp) hC ((fraction_iff us k v).1 hf).2], Or.inl ⟨rfl, hf⟩⟩
    · have hfit : ¬ Fits us _ v := fun h => hf ((fraction_iff us k v).2 ⟨hC, h⟩)
      exact ⟨1, by simp [setFraction, hcont, hm, h4 rfl hC hfit], Or.inr ⟨rfl, hf⟩⟩
  · simp [setFraction, hcont, hm, check]

/-- C24 read literally is false for absolute quantities: at FATAL every value is refused, whatever its units. -/
theorem C24_absolute_fatal_fails (us : UnitSys U D α) (k : Consts U α) (s : Option (Value U α S P)) (v : Value U α S P) :
    ∃ e, setAbsolute us k .fatal s (.value v) = (s, 0, .error e) := by
  simp only [setAbsolute]
  split
  · split
    · simp only [ne_eq, reduceCtorEq, not_false_eq_true, if_true, if_false]
      split
      · exact ⟨_, rfl⟩
      · split <;> exact ⟨_, rfl⟩
    · exact ⟨_, rfl⟩
    · exact ⟨_, rfl⟩
  · exact ⟨_, rfl⟩

/-- C24, absolute quantities at WARNING and IGNORE: a complete real value is stored whatever its units; WARNING logs one message
if some outcome is negative (or beyond the largest float), and one if it is a dimensionless non-negative value. Missing:
at FATAL (see `C24_absolute_fatal_fails`). -/
theorem C24_absolute_partial (us : UnitSys U D α) (hl : us.Lawful) (k : Consts U α) (h0 : k.zero ≤ k.max)
    (s : Option (Value U α S P)) (v : Value U α S P) (u : U) (hu : unitsOf v = some u) (hc : HasContent v) :
    setAbsolute us k .ignore s (.value v) = (some v, 0, .ok ()) ∧
    ∃ n m, setAbsolute us k .warning s (.value v) = (some v, n + m, .ok ()) ∧
      (n = 0 ∧ Fits us (.real { lower := k.zero, upper := k.max, units := u }) v ∨
       n = 1 ∧ ¬ Fits us (.real { lower := k.zero, upper := k.max, units := u }) v) ∧
      (m = 1 ∧ Fits us (.real { lower := k.zero, upper := k.max, units := k.unitless }) v ∨
       m = 0 ∧ ¬ Fits us (.real { lower := k.zero, upper := k.max, units := k.unitless }) v) := by
  have hm : ∀ w : U, mkReal (some k.zero) (some k.max) w = .ok { lower := k.zero, upper := k.max, units := w } := by
    intro w; rw [mkReal_some, if_neg (not_lt.mpr h0)]
  have hk : valueKind v = .real := by cases v <;> first | rfl | cases hu
  have hcont := (continuous_iff v).2 hk
  have hC : Complete v := ⟨hc, by cases v <;> first | trivial | cases hk⟩
  refine ⟨by simp [setAbsolute, hcont, hu, hm], ?_⟩
  obtain ⟨r1, hr1, i1⟩ := (contains_value us hl (.real { lower := k.zero, upper := k.max, units := u }) v).1 hC
  obtain ⟨r2, hr2, i2⟩ := (contains_value us hl (.real { lower := k.zero, upper := k.max, units := k.unitless }) v).1 hC
  refine ⟨if r1 then 0 else 1, if r2 then 1 else 0, ?_, ?_, ?_⟩
  · simp [setAbsolute, hcont, hu, hm, hr1, hr2]
  · rw [← i1]; cases r1 <;> simp
  · rw [← i2]; cases r2 <;> simp

/-- C24: None clears, anything that is not a real value is a TypeError, and any refused assignment changes nothing. -/
theorem C24_atomic (us : UnitSys U D α) (k : Consts U α) (level : Level) (s : Option (Value U α S P)) (a : ValArg U α S P) :
    (setAbsolute us k level s .none = (none, 0, .ok ())) ∧
    (∀ v, a = .value v → valueKind v ≠ .real →
      setAbsolute us k level s a = (s, 0, .error .typeError) ∧ setFraction us k level s a = (s, 0, .error .typeError)) ∧
    (∀ e, (setAbsolute us k level s a).2.2 = .error e → (setAbsolute us k level s a).1 = s) ∧
    (∀ e, (setFraction us k level s a).2.2 = .error e → (setFraction us k level s a).1 = s) := by
  refine ⟨rfl, ?_, ?_, ?_⟩
  · rintro v rfl hk
    have hcont : isContinuous v = false := by
      cases h : isContinuous v with
      | false => rfl
      | true => exact absurd ((continuous_iff v).1 h) hk
    simp [setAbsolute, setFraction, hcont]
  · intro e h
    cases a <;> simp only [setAbsolute] at h ⊢ <;> (repeat' split at h) <;> simp_all
  · intro e h
    cases a <;> simp only [setFraction] at h ⊢ <;> (repeat' split at h) <;> simp_all

/-! ## The hypotheses can be met -/

section examples

abbrev V := Value PosUnit Rat String Rat
abbrev B := Bounds PosUnit Rat String

/-- a length within 0..2 m, given in centimetres -/
def len : V := .nominalReal (some 150) cm
def lenBounds : B := .real { lower := 0, upper := 2, units := metre }

example : mk posSys .fatal (.value len) (.tmpl lenBounds) = (0, .ok { value := some len, template := .tmpl lenBounds }) := by
  have : contains posSys lenBounds (.value len) = .ok true := by decide +kernel
  simp [mk, setValue, setTemplate, check, this]

example : Complete len := ⟨rfl, trivial⟩

/-- 300 cm is refused at FATAL, leaving the attribute as it was -/
example : (setValue posSys .fatal { value := some len, template := .tmpl lenBounds }
    (.value (.nominalReal (some 300) cm : V))) = ({ value := some len, template := .tmpl lenBounds }, 0, .error .valueError) := by
  have : contains posSys lenBounds (.value (.nominalReal (some 300) cm : V)) = .ok false := by decide +kernel
  simp [setValue, check, this]

def unitless : PosUnit := ⟨⟨2, 1, 0⟩, by decide +kernel⟩
def percent : PosUnit := ⟨⟨2, 1/100, 0⟩, by decide +kernel⟩
def consts : Consts PosUnit Rat := { zero := 0, one := 1, max := 10 ^ 300, unitless := unitless }

example : consts.zero ≤ consts.one ∧ consts.zero ≤ consts.max := by constructor <;> decide +kernel

/-- 50 % is a fraction -/
example : (setFraction posSys consts .fatal none (.value (.nominalReal (some 50) percent : V))).2.2 = .ok () := by decide +kernel

/-- 5 m is an acceptable absolute quantity, and still refused at FATAL -/
example : (setAbsolute posSys consts .fatal none (.value (.nominalReal (some 5) metre : V))).2.2 = .error .valueError := by
  decide +kernel

end examples

end Verif.Attr
