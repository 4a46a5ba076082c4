import Mathlib.Algebra.Order.Ring.Unbundled.Rat
import Verif.Props.Bounds
/-!
# Properties C09 - C14: update, histories, dispatch, smallest bounds, integers, unit conversion; and concrete instances
-/

set_option linter.unusedSectionVars false
set_option linter.dupNamespace false
set_option exponentiation.threshold 2000

namespace Verif.Bounds
open Verif.Py

variable {U D α S P : Type} [LinearOrder α] [DecidableEq U] [DecidableEq D] [DecidableEq S]

/-! ## C09: update -/

theorem strings_map_str (l : List S) : strings (l.map Elem.str) = l := by
  unfold strings
  induction l with
  | nil => rfl
  | cons a l ih => simp only [List.map, List.filterMap]; rw [ih]

theorem all_isStr_map_str (l : List S) : (l.map Elem.str).all Elem.isStr = true := by
  simp [Elem.isStr]

theorem union_real_units (us : UnitSys U D α) (a : RealB U α) (others : List (Arg U α S P)) (r : Bounds U α S)
    (h : union us (.real a) others = .ok r) : ∃ b : RealB U α, r = .real b ∧ b.units = a.units := by
  unfold union at h
  split at h
  · cases h
  simp only at h
  split at h
  · cases h
  obtain ⟨b, hb, rfl⟩ := map_ok h
  refine ⟨b, rfl, ?_⟩
  rw [mkReal_some] at hb
  split at hb
  · cases hb
  · injection hb with hb; rw [← hb]

/-- the receiver is not of the molecular kind -/
def NotMol (b : Bounds U α S) : Prop := kind b ≠ .mol

/-- C09 (non-molecular receivers). `update` raises exactly what `union` raises and then leaves the receiver as it was;
otherwise the receiver becomes the union, in its own units. -/
theorem C09_update_is_union_partial (us : UnitSys U D α) (hl : us.Lawful) (self : Bounds U α S)
    (others : List (Arg U α S P)) (hs : Valid self) (hm : NotMol self) :
    (∀ e, union us self others = .error e → update us self others = (self, .error e)) ∧
    (∀ r, union us self others = .ok r → update us self others = (r, .ok ()) ∧
      ∀ a b, self = .real a → r = .real b → b.units = a.units) := by
  constructor
  · intro e he
    cases self with
    | mol => exact absurd rfl hm
    | _ => simp only [update, he]
  · intro r hr
    have hlub := C08_union_lub us hl self others hs r hr
    refine ⟨?_, ?_⟩
    · cases self with
      | mol => exact absurd rfl hm
      | real a =>
        obtain ⟨b, rfl, hu⟩ := union_real_units us a others r hr
        have hc := hlub.2.1
        rw [contains_bounds] at hc
        injection hc with hc
        rw [containsB_real hl, hu, toRoot_le_iff hl, toRoot_le_iff hl] at hc
        have hs' : a.lower ≤ a.upper := hs
        have h1 : ¬ b.lower > a.upper := not_lt_of_ge (le_trans hc.2.1 hs')
        have h2 : ¬ b.upper < b.lower := not_lt_of_ge hlub.1
        simp only [update, hr, RealRaw.setLower, if_neg h1, thenDo, RealRaw.setUpper, if_neg h2, RealRaw.setUnits,
          RealRaw.get?]
      | int a =>
        unfold update
        simp only [hr]
        obtain ⟨b, rfl⟩ : ∃ b, r = .int b := by
          have hc := hlub.2.1
          rw [contains_bounds] at hc
          injection hc with hc
          cases r <;> first | exact ⟨_, rfl⟩ | (simp [containsB] at hc)
        have hc := hlub.2.1
        rw [contains_bounds] at hc
        injection hc with hc
        simp only [containsB, Bool.and_eq_true, decide_eq_true_eq, ge_iff_le] at hc
        obtain ⟨v1, v2, v3⟩ := hlub.1
        have hs1 := hs.1
        have h1 : ¬ b.lower > a.upper := by omega
        have h2 : ¬ b.upper < b.lower := by omega
        have c1 : (NumArg.int b.lower).check = .ok b.lower := by simp [NumArg.check, v2]
        have c2 : (NumArg.int b.upper).check = .ok b.upper := by simp [NumArg.check, v3]
        simp only [IntRaw.setLower, c1, if_neg h1, thenDo, IntRaw.setUpper, c2, if_neg h2, IntRaw.get?]
      | cat a =>
        unfold update
        simp only [hr]
        obtain ⟨b, rfl⟩ : ∃ b, r = .cat b := by
          have hc := hlub.2.1
          rw [contains_bounds] at hc
          injection hc with hc
          cases r <;> first | exact ⟨_, rfl⟩ | (simp [containsB] at hc)
        simp only [setCategories, all_isStr_map_str, if_true, strings_map_str]
      | comp a =>
        unfold update
        simp only [hr]
        obtain ⟨b, rfl⟩ : ∃ b, r = .comp b := by
          have hc := hlub.2.1
          rw [contains_bounds] at hc
          injection hc with hc
          cases r <;> first | exact ⟨_, rfl⟩ | (simp [containsB] at hc)
        simp only [setCategories, all_isStr_map_str, if_true, strings_map_str]
    · rintro a b rfl rfl
      obtain ⟨b', h, hu⟩ := union_real_units us a others _ hr
      injection h with h; rw [h]; exact hu

/-- C09 for molecular bounds, as far as it goes: when `union` succeeds, `update` agrees with it. -/
theorem C09_update_mol_partial (us : UnitSys U D α) (others : List (Arg U α S P)) (r : Bounds U α S)
    (h : union us .mol others = .ok r) : update us .mol others = (r, .ok ()) := by
  unfold union at h
  split at h
  · cases h
  · injection h with h; subst h; rfl

/-- C09 read literally is false: molecular `update` accepts what `union` rejects. -/
theorem C09_update_mol_counterexample (us : UnitSys U D α) (s : S) :
    union us .mol [(.bounds (.cat [s]) : Arg U α S P)] = .error .typeError ∧
    update us .mol [(.bounds (.cat [s]) : Arg U α S P)] = (.mol, .ok ()) := ⟨rfl, rfl⟩

/-! ## C10: bounds stay well formed -/

/-- A float argument that is a whole number is an integer a float can represent. (In the model a float is a rational; this
says that the rational really is the value of a float.) -/
def NumArg.IsPy : NumArg → Prop
  | .float q => q.den = 1 → floatOfInt q.num = some q.num
  | _ => True

theorem check_float {v : NumArg} (hv : v.IsPy) {m : Int} (h : v.check = .ok m) : floatOfInt m = some m := by
  cases v with
  | none => cases h
  | nonFinite => cases h
  | int n => obtain ⟨rfl, h⟩ := check_ok h; exact h
  | float q =>
    unfold NumArg.check at h
    by_cases e : q.den = 1
    · simp only [e, ne_eq, not_true_eq_false, if_false] at h
      injection h with h; subst h; exact hv e
    · simp [e] at h

def OpPy : Op U α S P → Prop
  | .setLowerInt v => v.IsPy
  | .setUpperInt v => v.IsPy
  | _ => True

theorem containsB_kind {us : UnitSys U D α} {a b : Bounds U α S} (h : containsB us a b = true) : kind a = kind b := by
  cases a <;> cases b <;> first | rfl | cases h

/-- C10, one operation: keeps the bounds well formed and of the same kind, and changes nothing when it raises. -/
theorem C10_step (us : UnitSys U D α) (hl : us.Lawful) (self : Bounds U α S) (op : Op U α S P)
    (hs : Valid self) (ho : OpPy op) :
    Valid (step us self op).1 ∧ kind (step us self op).1 = kind self ∧
      (∀ e, (step us self op).2 = .error e → (step us self op).1 = self) := by
  cases op with
  | setLower v =>
    cases self with
    | real b =>
      have hs : b.lower ≤ b.upper := hs
      cases v with
      | none => exact ⟨hs, rfl, fun _ _ => rfl⟩
      | some x =>
        by_cases h : x > b.upper
        · have e : step us (.real b : Bounds U α S) (.setLower (some x) : Op U α S P) = (.real b, .error .valueError) := by
            simp only [step, rawReal, RealRaw.setLower, if_pos h, backReal, RealRaw.get?]
          rw [e]; exact ⟨hs, rfl, fun _ _ => rfl⟩
        · have e : step us (.real b : Bounds U α S) (.setLower (some x) : Op U α S P)
              = (.real { b with lower := x }, .ok ()) := by
            simp only [step, rawReal, RealRaw.setLower, if_neg h, backReal, RealRaw.get?]
          rw [e]; exact ⟨le_of_not_gt h, rfl, fun _ h => by cases h⟩
    | _ => exact ⟨hs, rfl, fun _ _ => rfl⟩
  | setUpper v =>
    cases self with
    | real b =>
      have hs : b.lower ≤ b.upper := hs
      cases v with
      | none => exact ⟨hs, rfl, fun _ _ => rfl⟩
      | some x =>
        by_cases h : x < b.lower
        · have e : step us (.real b : Bounds U α S) (.setUpper (some x) : Op U α S P) = (.real b, .error .valueError) := by
            simp only [step, rawReal, RealRaw.setUpper, if_pos h, backReal, RealRaw.get?]
          rw [e]; exact ⟨hs, rfl, fun _ _ => rfl⟩
        · have e : step us (.real b : Bounds U α S) (.setUpper (some x) : Op U α S P)
              = (.real { b with upper := x }, .ok ()) := by
            simp only [step, rawReal, RealRaw.setUpper, if_neg h, backReal, RealRaw.get?]
          rw [e]; exact ⟨le_of_not_gt h, rfl, fun _ h => by cases h⟩
    | _ => exact ⟨hs, rfl, fun _ _ => rfl⟩
  | setUnits v =>
    cases self with
    | real b => cases v <;> exact ⟨hs, rfl, fun _ h => by first | rfl | cases h⟩
    | _ => exact ⟨hs, rfl, fun _ _ => rfl⟩
  | setLowerInt v =>
    cases self with
    | int b =>
      cases c : v.check with
      | error er =>
        have e : step us (.int b : Bounds U α S) (.setLowerInt v : Op U α S P) = (.int b, .error er) := by
          simp only [step, rawInt, IntRaw.setLower, c, backInt, IntRaw.get?]
        rw [e]; exact ⟨hs, rfl, fun _ _ => rfl⟩
      | ok n =>
        by_cases h : n > b.upper
        · have e : step us (.int b : Bounds U α S) (.setLowerInt v : Op U α S P) = (.int b, .error .valueError) := by
            simp only [step, rawInt, IntRaw.setLower, c, if_pos h, backInt, IntRaw.get?]
          rw [e]; exact ⟨hs, rfl, fun _ _ => rfl⟩
        · have e : step us (.int b : Bounds U α S) (.setLowerInt v : Op U α S P) = (.int { b with lower := n }, .ok ()) := by
            simp only [step, rawInt, IntRaw.setLower, c, if_neg h, backInt, IntRaw.get?]
          rw [e]; exact ⟨⟨by simp only; omega, check_float ho c, hs.2.2⟩, rfl, fun _ h => by cases h⟩
    | _ => exact ⟨hs, rfl, fun _ _ => rfl⟩
  | setUpperInt v =>
    cases self with
    | int b =>
      cases c : v.check with
      | error er =>
        have e : step us (.int b : Bounds U α S) (.setUpperInt v : Op U α S P) = (.int b, .error er) := by
          simp only [step, rawInt, IntRaw.setUpper, c, backInt, IntRaw.get?]
        rw [e]; exact ⟨hs, rfl, fun _ _ => rfl⟩
      | ok n =>
        by_cases h : n < b.lower
        · have e : step us (.int b : Bounds U α S) (.setUpperInt v : Op U α S P) = (.int b, .error .valueError) := by
            simp only [step, rawInt, IntRaw.setUpper, c, if_pos h, backInt, IntRaw.get?]
          rw [e]; exact ⟨hs, rfl, fun _ _ => rfl⟩
        · have e : step us (.int b : Bounds U α S) (.setUpperInt v : Op U α S P) = (.int { b with upper := n }, .ok ()) := by
            simp only [step, rawInt, IntRaw.setUpper, c, if_neg h, backInt, IntRaw.get?]
          rw [e]; exact ⟨⟨by simp only; omega, hs.2.1, check_float ho c⟩, rfl, fun _ h => by cases h⟩
    | _ => exact ⟨hs, rfl, fun _ _ => rfl⟩
  | update others =>
    by_cases hm : NotMol self
    · obtain ⟨h1, h2⟩ := C09_update_is_union_partial us hl self others hs hm
      show Valid (update us self others).1 ∧ kind (update us self others).1 = kind self ∧ _
      cases hu : union us self others with
      | error e =>
        have := h1 e hu
        simp only [step, this]
        exact ⟨hs, by trivial, fun _ _ => by trivial⟩
      | ok r =>
        have hr := (h2 r hu).1
        obtain ⟨hv, hc, _⟩ := C08_union_lub us hl self others hs r hu
        rw [contains_bounds] at hc
        injection hc with hc
        simp only [step, hr]
        exact ⟨hv, containsB_kind hc, fun _ h => by cases h⟩
    · have : self = .mol := kind_mol (Classical.not_not.1 hm)
      subst this
      exact ⟨trivial, rfl, fun _ h => by cases h⟩

/-- C10. Whatever sequence of assignments and updates is attempted, successful or not, real and integer bounds have
`lower ≤ upper` (part of `Valid`). -/
theorem C10_history (us : UnitSys U D α) (hl : us.Lawful) (ops : List (Op U α S P)) :
    ∀ self : Bounds U α S, Valid self → (∀ o ∈ ops, OpPy o) →
      Valid (run us self ops) ∧ kind (run us self ops) = kind self := by
  induction ops with
  | nil => intro self h _; exact ⟨h, rfl⟩
  | cons op ops ih =>
    intro self h ho
    obtain ⟨h1, h2, _⟩ := C10_step us hl self op h (ho op List.mem_cons_self)
    obtain ⟨h3, h4⟩ := ih _ h1 (fun o h => ho o (List.mem_cons_of_mem _ h))
    exact ⟨h3, h4.trans h2⟩

/-- C10. A constructor that succeeds yields ordered bounds with exactly the given endpoints and units. -/
theorem C10_real_init (lo hi : RealArg α) (u : UnitArg U) (s : RealRaw U α)
    (h : RealRaw.init lo hi u = .ok s) :
    ∃ l h' w, lo = some l ∧ hi = some h' ∧ u = .unit w ∧ l ≤ h' ∧
      s.get? = some { lower := l, upper := h', units := w } := by
  cases u with
  | none => cases h
  | bad => cases h
  | unit w =>
    cases lo with
    | none => cases h
    | some l =>
      cases hi with
      | none => cases h
      | some x =>
        simp only [RealRaw.init, RealRaw.setUnits, RealRaw.setLower, RealRaw.setUpper] at h
        by_cases e : x < l
        · simp [e] at h
        · simp only [e, if_false] at h
          injection h with h; subst h
          exact ⟨l, x, w, rfl, rfl, rfl, le_of_not_gt e, rfl⟩

theorem C10_int_init (lo hi : NumArg) (s : IntRaw) (h : IntRaw.init lo hi = .ok s) :
    ∃ l h', lo.check = .ok l ∧ hi.check = .ok h' ∧ l ≤ h' ∧ s.get? = some { lower := l, upper := h' } := by
  unfold IntRaw.init IntRaw.setLower at h
  cases c1 : lo.check with
  | error e => rw [c1] at h; cases h
  | ok l =>
    rw [c1] at h
    simp only [IntRaw.setUpper] at h
    cases c2 : hi.check with
    | error e => rw [c2] at h; cases h
    | ok x =>
      rw [c2] at h
      simp only at h
      by_cases e : x < l
      · simp [e] at h
      · simp only [e, if_false] at h
        injection h with h; subst h
        exact ⟨l, x, rfl, rfl, by omega, rfl⟩

/-- C10, categories and components: an assignment that succeeds leaves only strings, namely exactly the given ones;
one refused for not being a collection changes nothing. -/
theorem C10_categories_partial (s : List (Elem S)) (a : SetArg S) :
    ((setCategories s a).2 = .ok () → (∀ x ∈ (setCategories s a).1, ∃ c, x = .str c) ∧
      (∀ l, a = .collection l → (setCategories s a).1 = l)) ∧
    (a = .other → (setCategories s a).1 = s ∧ (setCategories s a).2 = .error .valueError) := by
  refine ⟨?_, by rintro rfl; exact ⟨rfl, rfl⟩⟩
  intro h
  cases a with
  | none => exact ⟨by simp [setCategories], by intro l hl; cases hl⟩
  | other => cases h
  | collection l =>
    unfold setCategories at h ⊢
    by_cases e : l.all Elem.isStr = true
    · simp only [e, if_true]
      refine ⟨?_, by intro l' hl'; injection hl'⟩
      intro x hx
      have := List.all_eq_true.1 e x hx
      cases x with
      | str c => exact ⟨c, rfl⟩
      | nonStr => cases this
    · simp [e] at h

/-- C10 read literally is false for categorical and composition bounds: a refused assignment has already replaced the set,
which now holds a non-string. -/
theorem C10_categories_counterexample (c : S) :
    ∃ s' : List (Elem S), setCategories [.str c] (.collection [.nonStr]) = (s', .error .valueError) ∧
      s' ≠ [.str c] ∧ .nonStr ∈ s' :=
  ⟨[.nonStr], rfl, by simp, by simp⟩

/-! ## C11: dispatch -/

/-- C11. The complete decision table of `contains`. -/
theorem C11_dispatch (us : UnitSys U D α) (self : Bounds U α S) :
    contains us self (.none : Arg U α S P) = .ok false ∧
    contains us self (.other : Arg U α S P) = .error .typeError ∧
    (∀ (v : Value U α S P) b, toBounds v = .ok b →
      contains us self (.value v) = contains us self (.bounds b : Arg U α S P)) ∧
    (∀ (v : Value U α S P) e, toBounds v = .error e → contains us self (.value v) = .error e) ∧
    (∀ b, kind b ≠ kind self → contains us self (.bounds b : Arg U α S P) = .ok false) := by
  refine ⟨rfl, rfl, ?_, ?_, ?_⟩
  · intro v b h; simp [contains, baseContains, h]
  · intro v e h; simp [contains, baseContains, h]
  · intro b h
    rw [contains_bounds]
    cases self <;> cases b <;> first | rfl | exact absurd rfl h

/-! ## C12: smallest bounds of a value -/

/-- The outcomes a value stands for: the nominal value, the mean of a normal distribution, the range of a uniform one, the
listed categories or components. -/
def Support (us : UnitSys U D α) : Value U α S P → Outcome D α S → Prop
  | .nominalReal (some x) u, .quantity d r => d = us.root u ∧ r = us.toRoot u x
  | .normalReal (some x) _ u, .quantity d r => d = us.root u ∧ r = us.toRoot u x
  | .uniformReal (some l) (some h) u, .quantity d r => d = us.root u ∧ ∃ x, l ≤ x ∧ x ≤ h ∧ r = us.toRoot u x
  | .nominalInteger n, .integer m => m = n
  | .uniformInteger l h, .integer m => l ≤ m ∧ m ≤ h
  | .nominalCategorical (some c), .category s => s = c
  | .discreteCategorical (some p), .category s => ∃ q, (s, q) ∈ p
  | .nominalComposition p, .component s => ∃ q, (s, q) ∈ p
  | .empiricalFormula (some es), .component s => s ∈ es
  | .smiles, .molecule => True
  | .inchi, .molecule => True
  | _, _ => False

theorem mkCategories_strs (l : List S) : mkCategories (.collection (l.map Elem.str)) = .ok (l.map Elem.str) := by
  unfold mkCategories setCategories
  simp only [all_isStr_map_str, if_true]

/-- the derived bounds admit exactly the outcomes the value stands for -/
theorem C12_bounds_are_support (us : UnitSys U D α) (v : Value U α S P) (b : Bounds U α S)
    (h : toBounds v = .ok b) (o : Outcome D α S) : Admits us b o ↔ Support us v o := by
  cases v with
  | nominalReal x u =>
    obtain ⟨r, hr, rfl⟩ := map_ok h
    cases x with
    | none => cases hr
    | some x =>
      rw [mkReal_some, if_neg (lt_irrefl x)] at hr
      injection hr with hr; subst hr
      cases o with
      | quantity d r =>
        constructor
        · rintro ⟨h1, y, h2, h3, h4⟩
          exact ⟨h1, by rw [h4]; exact congrArg _ (le_antisymm h3 h2)⟩
        · rintro ⟨h1, h2⟩; exact ⟨h1, x, le_refl _, le_refl _, h2⟩
      | _ => exact Iff.rfl
  | normalReal x s u =>
    obtain ⟨r, hr, rfl⟩ := map_ok h
    cases x with
    | none => cases hr
    | some x =>
      rw [mkReal_some, if_neg (lt_irrefl x)] at hr
      injection hr with hr; subst hr
      cases o with
      | quantity d r =>
        constructor
        · rintro ⟨h1, y, h2, h3, h4⟩
          exact ⟨h1, by rw [h4]; exact congrArg _ (le_antisymm h3 h2)⟩
        · rintro ⟨h1, h2⟩; exact ⟨h1, x, le_refl _, le_refl _, h2⟩
      | _ => exact Iff.rfl
  | uniformReal x y u =>
    obtain ⟨r, hr, rfl⟩ := map_ok h
    cases x with
    | none => cases hr
    | some x =>
      cases y with
      | none => cases hr
      | some y =>
        rw [mkReal_some] at hr
        split at hr
        · cases hr
        · injection hr with hr; subst hr
          cases o <;> exact Iff.rfl
  | nominalInteger n =>
    obtain ⟨r, hr, rfl⟩ := map_ok h
    obtain ⟨rfl, _⟩ := mkInt_ok hr
    cases o with
    | integer m => simp only [Admits, Support]; omega
    | _ => exact Iff.rfl
  | uniformInteger l x =>
    obtain ⟨r, hr, rfl⟩ := map_ok h
    obtain ⟨rfl, _⟩ := mkInt_ok hr
    cases o <;> exact Iff.rfl
  | nominalCategorical c =>
    cases c with
    | none => simp only [toBounds] at h; cases h
    | some c =>
      simp only [toBounds] at h
      obtain ⟨r, hr, rfl⟩ := map_ok h
      have := mkCategories_strs [c]
      simp only [List.map] at this
      rw [this] at hr
      injection hr with hr; subst hr
      cases o <;> simp [Admits, Support, strings]
  | discreteCategorical p =>
    cases p with
    | none => cases h
    | some p =>
      obtain ⟨r, hr, rfl⟩ := map_ok h
      have e : p.map (fun e => Elem.str e.1) = (p.map Prod.fst).map Elem.str := by simp
      rw [e, mkCategories_strs] at hr
      injection hr with hr; subst hr
      rw [strings_map_str]
      cases o <;> simp [Admits, Support]
  | nominalComposition p =>
    obtain ⟨r, hr, rfl⟩ := map_ok h
    have e : p.map (fun e => Elem.str e.1) = (p.map Prod.fst).map Elem.str := by simp
    rw [e, mkCategories_strs] at hr
    injection hr with hr; subst hr
    rw [strings_map_str]
    cases o <;> simp [Admits, Support]
  | empiricalFormula es =>
    cases es with
    | none => cases h
    | some es =>
      obtain ⟨r, hr, rfl⟩ := map_ok h
      rw [mkCategories_strs] at hr
      injection hr with hr; subst hr
      rw [strings_map_str]
      cases o <;> exact Iff.rfl
  | smiles => cases h; cases o <;> exact Iff.rfl
  | inchi => cases h; cases o <;> exact Iff.rfl

theorem toBounds_kind {v : Value U α S P} {b : Bounds U α S} (h : toBounds v = .ok b) : kind b = valueKind v := by
  have : admits b (.value v) = true → kind b = valueKind v := by
    intro h; have := (admits_iff b (.value v : Arg U α S P)).1 h; simp [argKind] at this; exact this.symm
  cases v with
  | nominalCategorical c => cases c <;> simp only [toBounds] at h <;> obtain ⟨r, hr, rfl⟩ := map_ok h <;> rfl
  | discreteCategorical c => cases c <;> first | cases h | (obtain ⟨r, hr, rfl⟩ := map_ok h; rfl)
  | empiricalFormula c => cases c <;> first | cases h | (obtain ⟨r, hr, rfl⟩ := map_ok h; rfl)
  | smiles => cases h; rfl
  | inchi => cases h; rfl
  | _ => obtain ⟨r, hr, rfl⟩ := map_ok h; rfl

/-- C12. The bounds derived from a value contain the value; any bounds containing the value contains them; and they are
contained in every bounds of their kind (for reals: of commensurable units) that admits all outcomes of the value. -/
theorem C12_smallest (us : UnitSys U D α) (hl : us.Lawful) (v : Value U α S P) (b : Bounds U α S)
    (h : toBounds v = .ok b) :
    contains us b (.value v) = .ok true ∧
    (∀ c : Bounds U α S, contains us c (.value v) = .ok true → contains us c (.bounds b : Arg U α S P) = .ok true) ∧
    (∀ c : Bounds U α S, Commensurable us c b → (∀ o, Support us v o → Admits us c o) →
      contains us c (.value v) = .ok true) := by
  have hv := toBounds_valid h
  have hd := (C11_dispatch (P := P) us · |>.2.2.1 v b h)
  refine ⟨?_, ?_, ?_⟩
  · rw [hd]; exact C07_refl us hl b
  · intro c hc; rw [hd] at hc; exact hc
  · intro c hk hs
    rw [hd]
    have hadm : ∀ o, Admits us b o → Admits us c o := fun o ho => hs o ((C12_bounds_are_support us v b h o).1 ho)
    by_cases hkr : kind c = .real
    · obtain ⟨c, rfl⟩ := kind_real hkr
      cases b with
      | real b =>
        obtain ⟨r, hr, hi⟩ := C05_real_contains (S := S) (P := P) us hl c b hv
        rw [hr, hi.2 ⟨hk, hadm⟩]
      | _ => cases hk
    · have hkk : kind c = kind b := by cases c <;> cases b <;> first | rfl | exact hk | exact absurd rfl hkr
      obtain ⟨r, hr, hi⟩ := C06_contains (P := P) us c b hkr hv
      rw [hr, hi.2 ⟨hkk, hadm⟩]

/-- the required content of a value is there -/
def HasContent : Value U α S P → Prop
  | .nominalReal x _ => x.isSome
  | .normalReal x _ _ => x.isSome
  | .uniformReal l h _ => ∃ x y, l = some x ∧ h = some y ∧ x ≤ y
  | .uniformInteger l h => l ≤ h
  | .nominalCategorical c => c.isSome
  | .discreteCategorical p => p.isSome
  | .empiricalFormula e => e.isSome
  | _ => True

/-- integers in the value are representable as floats -/
def IntsRepresentable : Value U α S P → Prop
  | .nominalInteger n => floatOfInt n = some n
  | .uniformInteger l h => floatOfInt l = some l ∧ floatOfInt h = some h
  | _ => True

/-- C12. Every value with its required content has bounds, provided its integers are representable as floats. -/
theorem C12_has_bounds_partial (v : Value U α S P) (hc : HasContent v) (hi : IntsRepresentable v) :
    ∃ b, toBounds v = .ok b := by
  cases v with
  | nominalReal x u =>
    cases x with
    | none => cases hc
    | some x => exact ⟨_, by simp only [toBounds]; rw [mkReal_some, if_neg (lt_irrefl x)]; rfl⟩
  | normalReal x s u =>
    cases x with
    | none => cases hc
    | some x => exact ⟨_, by simp only [toBounds]; rw [mkReal_some, if_neg (lt_irrefl x)]; rfl⟩
  | uniformReal l h u =>
    obtain ⟨x, y, rfl, rfl, hxy⟩ := hc
    exact ⟨_, by simp only [toBounds]; rw [mkReal_some, if_neg (not_lt_of_ge hxy)]; rfl⟩
  | nominalInteger n => exact ⟨_, by simp only [toBounds]; rw [mkInt_eq _ _ hi hi, if_neg (by omega)]; rfl⟩
  | uniformInteger l h =>
    have hc : l ≤ h := hc
    exact ⟨_, by simp only [toBounds]; rw [mkInt_eq _ _ hi.1 hi.2, if_neg (by omega)]; rfl⟩
  | nominalCategorical c =>
    cases c with
    | none => cases hc
    | some c => exact ⟨_, by simp only [toBounds]; rfl⟩
  | discreteCategorical p =>
    cases p with
    | none => cases hc
    | some p =>
      have e : p.map (fun e => Elem.str e.1) = (p.map Prod.fst).map Elem.str := by simp
      exact ⟨_, by simp only [toBounds]; rw [e, mkCategories_strs]; rfl⟩
  | nominalComposition p =>
    have e : p.map (fun e => Elem.str e.1) = (p.map Prod.fst).map Elem.str := by simp
    exact ⟨_, by simp only [toBounds]; rw [e, mkCategories_strs]; rfl⟩
  | empiricalFormula es =>
    cases es with
    | none => cases hc
    | some es => exact ⟨_, by simp only [toBounds]; rw [mkCategories_strs]; rfl⟩
  | smiles => exact ⟨_, rfl⟩
  | inchi => exact ⟨_, rfl⟩

/-! ## C13: which integers are accepted -/

theorem roundNat_eq_iff (n : Nat) : roundNat n = n ↔ n < 2 ^ 53 ∨ 2 ^ (Nat.log2 n - 52) ∣ n := by
  unfold roundNat
  by_cases h : n < 2 ^ 53
  · rw [if_pos h]; exact ⟨fun _ => .inl h, fun _ => rfl⟩
  · rw [if_neg h]
    simp only [h, false_or]
    generalize hs : Nat.log2 n - 52 = s
    constructor
    · intro e
      rw [← e]
      exact Nat.dvd_mul_left _ _
    · intro hd
      have hr : n % 2 ^ s = 0 := Nat.mod_eq_zero_of_dvd hd
      have hp : 0 < 2 ^ (s - 1) := Nat.pow_pos (by omega)
      rw [if_neg (by rw [hr]; omega)]
      exact Nat.div_mul_cancel hd

/-- an integer a float represents exactly: few enough significant bits, and within range -/
def Representable (n : Int) : Prop :=
  (n.natAbs < 2 ^ 53 ∨ 2 ^ (Nat.log2 n.natAbs - 52) ∣ n.natAbs) ∧ n.natAbs < 2 ^ 1024

theorem floatOfInt_iff (n : Int) : floatOfInt n = some n ↔ Representable n := by
  have key : n.sign * (roundNat n.natAbs : Int) = n ↔ roundNat n.natAbs = n.natAbs := by
    rcases Int.lt_trichotomy n 0 with h | h | h
    · rw [Int.sign_eq_neg_one_of_neg h]; omega
    · subst h; decide
    · rw [Int.sign_eq_one_of_pos h]; omega
  unfold floatOfInt Representable
  rw [← roundNat_eq_iff]
  constructor
  · intro h
    simp only at h
    by_cases hlt : roundNat n.natAbs < 2 ^ 1024
    · rw [if_pos hlt] at h
      have := key.1 (Option.some.inj h)
      exact ⟨this, by rw [← this]; exact hlt⟩
    · rw [if_neg hlt] at h; cases h
  · rintro ⟨h1, h2⟩
    simp only
    rw [h1, if_pos h2]
    rw [h1] at key
    rw [key.2 rfl]

/-- C13, exact: which ints the setters of an unconstrained IntegerBounds accept. Every other int is rejected. -/
theorem C13_accepts_iff_partial (n : Int) (s : IntRaw) (hu : ∀ u, s.upper = some u → n ≤ u) :
    (s.setLower (.int n) = ({ s with lower := some n }, .ok ()) ↔ Representable n) := by
  rw [← floatOfInt_iff]
  constructor
  · intro h
    cases c : (NumArg.int n).check with
    | error e =>
      simp only [IntRaw.setLower, c] at h
      injection h with h1 h2; cases h2
    | ok m => exact (check_ok c).2
  · intro h
    have c : (NumArg.int n).check = .ok n := by simp [NumArg.check, h]
    simp only [IntRaw.setLower, c]
    cases hs : s.upper with
    | none => rfl
    | some u => simp only [gt_iff_lt]; rw [if_neg (by have := hu u hs; omega)]

/-- C13 for integers of absolute value up to 2^53 -/
theorem C13_small_partial (n : Int) (h : n.natAbs ≤ 2 ^ 53) : Representable n := by
  constructor
  · by_cases h' : n.natAbs < 2 ^ 53
    · exact .inl h'
    · have : n.natAbs = 2 ^ 53 := by omega
      rw [this]
      right
      rw [Nat.log2_two_pow]
      exact ⟨2 ^ 52, by decide⟩
  · exact Nat.lt_of_le_of_lt h (Nat.pow_lt_pow_right (by decide) (by decide))

/-- C13 read literally is false: 2^53 + 1 is rejected as non-integral. -/
theorem C13_counterexample (s : IntRaw) : s.setLower (.int (2 ^ 53 + 1)) = (s, .error .valueError) := by
  have : floatOfInt (2 ^ 53 + 1) = some (2 ^ 53) := by
    unfold floatOfInt
    have : roundNat (2 ^ 53 + 1 : Int).natAbs = 2 ^ 53 := by decide
    simp only [this]
    rw [if_pos (Nat.pow_lt_pow_right (by decide) (by decide))]
    decide
  have c : (NumArg.int (2 ^ 53 + 1)).check = .error .valueError := by
    simp only [NumArg.check, this]; rfl
  simp only [IntRaw.setLower, c]

/-- consequently such an integer value has no bounds (C12 read literally fails for it) -/
theorem C12_big_integer_counterexample :
    toBounds (.nominalInteger (2 ^ 53 + 1) : Value U α S P) = .error .valueError := by
  have := C13_counterexample { lower := none, upper := none }
  simp only [toBounds, mkInt, IntRaw.init, this]
  rfl

/-! ## C14: unit conversion -/

/-- C14. Conversion to other units succeeds exactly for commensurable units (else IncompatibleUnits); it is invertible,
composes, and preserves and reflects order. -/
theorem C14_conversion (us : UnitSys U D α) (hl : us.Lawful) (u v w : U) (x x' y y' z : α) :
    ((∃ r, convertUnits us x u v = .ok r) ↔ us.root u = us.root v) ∧
    (us.root u ≠ us.root v → convertUnits us x u v = .error .incompatibleUnits) ∧
    (convertUnits us x u v = .ok y → convertUnits us y v u = .ok x) ∧
    (convertUnits us x u v = .ok y → convertUnits us y v w = .ok z → convertUnits us x u w = .ok z) ∧
    (convertUnits us x u v = .ok y → convertUnits us x' u v = .ok y' → (x ≤ x' ↔ y ≤ y')) := by
  have ok_iff : ∀ (x : α) (u v : U) (y : α), convertUnits us x u v = .ok y ↔
      us.root u = us.root v ∧ us.toRoot u x = us.toRoot v y := by
    intro x u v y
    by_cases h : us.root u = us.root v
    · rw [convert_ok hl _ _ _ h]
      constructor
      · intro e; injection e with e; exact ⟨h, by rw [← e, hl.to_of]⟩
      · rintro ⟨_, e⟩; rw [e, hl.of_to]
    · rw [convert_err hl _ _ _ h]; simp [h]
  refine ⟨?_, fun h => convert_err hl _ _ _ h, ?_, ?_, ?_⟩
  · constructor
    · rintro ⟨r, hr⟩; exact ((ok_iff _ _ _ _).1 hr).1
    · intro h; exact ⟨_, convert_ok hl _ _ _ h⟩
  · intro h; obtain ⟨h1, h2⟩ := (ok_iff _ _ _ _).1 h; exact (ok_iff _ _ _ _).2 ⟨h1.symm, h2.symm⟩
  · intro h h'
    obtain ⟨h1, h2⟩ := (ok_iff _ _ _ _).1 h
    obtain ⟨h3, h4⟩ := (ok_iff _ _ _ _).1 h'
    exact (ok_iff _ _ _ _).2 ⟨h1.trans h3, h2.trans h4⟩
  · intro h h'
    obtain ⟨h1, h2⟩ := (ok_iff _ _ _ _).1 h
    obtain ⟨h3, h4⟩ := (ok_iff _ _ _ _).1 h'
    rw [← toRoot_le_iff hl u, h2, h4, toRoot_le_iff hl]

/-- `b` is `a` expressed in other units -/
def ReExpressed (us : UnitSys U D α) (a b : RealB U α) : Prop :=
  convertUnits us a.lower a.units b.units = .ok b.lower ∧ convertUnits us a.upper a.units b.units = .ok b.upper

/-- C14. Containment does not depend on the units in which either side is expressed. -/
theorem C14_containment_unit_free (us : UnitSys U D α) (hl : us.Lawful) (a a' b b' : RealB U α)
    (ha : ReExpressed us a a') (hb : ReExpressed us b b') :
    contains us (.real a) (.bounds (.real b) : Arg U α S P) =
      contains us (.real a') (.bounds (.real b') : Arg U α S P) := by
  have key : ∀ a a' : RealB U α, ReExpressed us a a' → us.root a.units = us.root a'.units ∧
      us.toRoot a.units a.lower = us.toRoot a'.units a'.lower ∧
      us.toRoot a.units a.upper = us.toRoot a'.units a'.upper := by
    rintro a a' ⟨h1, h2⟩
    have hr : us.root a.units = us.root a'.units :=
      (C14_conversion us hl a.units a'.units a'.units a.lower a.lower a.lower a.lower a.lower).1.1 ⟨_, h1⟩
    rw [convert_ok hl _ _ _ hr] at h1 h2
    injection h1 with h1; injection h2 with h2
    exact ⟨hr, by rw [← h1, hl.to_of], by rw [← h2, hl.to_of]⟩
  obtain ⟨a1, a2, a3⟩ := key a a' ha
  obtain ⟨b1, b2, b3⟩ := key b b' hb
  rw [contains_bounds, contains_bounds]
  congr 1
  rw [Bool.eq_iff_iff, containsB_real hl, containsB_real hl, a1, a2, a3, b1, b2, b3]

/-! ## Scaled and offset units: an instance of the laws -/

/-- units given by dimension, scale and offset: magnitude `x` in the unit is `scale * x + offset` in root units -/
structure AffineUnit where
  dim : Nat
  scale : Rat
  offset : Rat
  deriving DecidableEq

def affineSys : UnitSys AffineUnit Nat Rat where
  root u := u.dim
  toRoot u x := u.scale * x + u.offset
  ofRoot u r := (r - u.offset) / u.scale

/-- the units with positive scale -/
abbrev PosUnit := { u : AffineUnit // 0 < u.scale }

def posSys : UnitSys PosUnit Nat Rat where
  root u := affineSys.root u.1
  toRoot u := affineSys.toRoot u.1
  ofRoot u := affineSys.ofRoot u.1

/-- C14. Scaled and offset units with positive scale, in exact rational arithmetic, satisfy the laws. -/
theorem C14_affine_lawful : posSys.Lawful where
  of_to := by
    rintro ⟨u, hu⟩ x
    have : u.scale ≠ 0 := by grind
    show (u.scale * x + u.offset - u.offset) / u.scale = x
    grind
  to_of := by
    rintro ⟨u, hu⟩ x
    have : u.scale ≠ 0 := by grind
    show u.scale * ((x - u.offset) / u.scale) + u.offset = x
    grind
  mono := by
    rintro ⟨u, hu⟩ x y h
    show u.scale * x + u.offset ≤ u.scale * y + u.offset
    have := Rat.mul_le_mul_of_nonneg_left h (Rat.le_of_lt hu)
    grind

/-- The order law is needed: with a unit of negative scale containment is wrong. `[0, 1]` in a unit of scale -1 contains
`[-1/2, -1/2]` in root units as sets of quantities, but the code answers False. -/
theorem C05_decreasing_unit_fails :
    ∃ (a b : RealB AffineUnit Rat),
      contains affineSys (.real a) (.bounds (.real b) : Arg AffineUnit Rat String Rat) = .ok false ∧
      ∀ q : Outcome Nat Rat String, Admits affineSys (.real b) q → Admits affineSys (.real a) q := by
  refine ⟨⟨0, 1, ⟨0, -1, 0⟩⟩, ⟨-1/2, -1/2, ⟨0, 1, 0⟩⟩, by decide +kernel, ?_⟩
  intro q hq
  cases q with
  | quantity d r =>
    obtain ⟨hd, x, h1, h2, h3⟩ := hq
    have hr : r = 1 * x + 0 := h3
    refine ⟨hd, 1/2, by grind, by grind, ?_⟩
    show r = -1 * (1/2) + 0
    grind
  | _ => exact hq.elim

/-! ## Non-vacuity -/

section examples

/-- metre, centimetre (dimension 0), kelvin, degree Celsius (dimension 1) -/
def metre : PosUnit := ⟨⟨0, 1, 0⟩, by decide +kernel⟩
def cm : PosUnit := ⟨⟨0, 1/100, 0⟩, by decide +kernel⟩
def kelvin : PosUnit := ⟨⟨1, 1, 0⟩, by decide +kernel⟩
def celsius : PosUnit := ⟨⟨1, 1, 27315/100⟩, by decide +kernel⟩

abbrev XBounds := Bounds PosUnit Rat String
abbrev XArg := Arg PosUnit Rat String Rat

/-- [0, 1] m contains [10, 90] cm but not [10, 110] cm; and no temperature -/
example : contains posSys (.real ⟨0, 1, metre⟩) (.bounds (.real ⟨10, 90, cm⟩) : XArg) = .ok true := by decide +kernel
example : contains posSys (.real ⟨0, 1, metre⟩) (.bounds (.real ⟨10, 110, cm⟩) : XArg) = .ok false := by decide +kernel
example : contains posSys (.real ⟨0, 1, metre⟩) (.bounds (.real ⟨0, 1, kelvin⟩) : XArg) = .ok false := by decide +kernel
example : contains posSys (.real ⟨273, 400, kelvin⟩) (.bounds (.real ⟨0, 100, celsius⟩) : XArg) = .ok true := by
  decide +kernel

/-- union in the receiver's units, of a bounds and a value -/
example : union posSys (.real ⟨0, 1, metre⟩ : XBounds)
    [(.bounds (.real ⟨-50, 90, cm⟩) : XArg), .value (.nominalReal (some 300) cm)] = .ok (.real ⟨-1/2, 3, metre⟩) := by
  decide +kernel
example : union posSys (.cat ["a"] : XBounds)
    [(.bounds (.cat ["a", "b"]) : XArg), .value (.discreteCategorical (some [("c", 1/2), ("d", 1/2)]))]
    = .ok (.cat ["a", "b", "c", "d"]) := by decide +kernel
example : union posSys (.real ⟨0, 1, metre⟩ : XBounds) [(.bounds (.real ⟨0, 1, kelvin⟩) : XArg)]
    = .error .incompatibleUnits := by decide +kernel
example : Valid (.real ⟨0, 1, metre⟩ : XBounds) := by show (0 : Rat) ≤ 1; decide +kernel
example : Valid (.int ⟨-3, 5⟩ : XBounds) := ⟨by decide, by unfold floatOfInt; decide +kernel, by unfold floatOfInt; decide +kernel⟩
example : NotMol (.real ⟨0, 1, metre⟩ : XBounds) := by simp [NotMol, kind]
example : update posSys (.real ⟨0, 1, metre⟩ : XBounds) [(.bounds (.real ⟨50, 200, cm⟩) : XArg)]
    = (.real ⟨0, 2, metre⟩, .ok ()) := by decide +kernel
/-- a history with a rejected assignment -/
example : run posSys (.real ⟨0, 1, metre⟩ : XBounds) [(.setLower (some 2) : Op PosUnit Rat String Rat), .setUpper (some 3),
    .setLower (some 2)] = .real ⟨2, 3, metre⟩ := by decide +kernel
example : toBounds (.uniformReal (some 0) (some 2) cm : Value PosUnit Rat String Rat) = .ok (.real ⟨0, 2, cm⟩) := by
  decide +kernel
example : HasContent (.uniformReal (some 0) (some 2) cm : Value PosUnit Rat String Rat) :=
  ⟨0, 2, rfl, rfl, by decide +kernel⟩
example : IntsRepresentable (.nominalInteger 7 : Value PosUnit Rat String Rat) := (floatOfInt_iff 7).2 (C13_small_partial 7 (by decide))
example : Representable (2 ^ 60) := by
  refine ⟨.inr ?_, Nat.pow_lt_pow_right (by decide) (by decide)⟩
  exact ⟨2 ^ 52, by decide +kernel⟩
example : ¬ Representable (2 ^ 53 + 1) := by
  rintro ⟨h | h, _⟩
  · revert h; decide
  · revert h; decide +kernel
example : ReExpressed posSys ⟨0, 1, metre⟩ ⟨0, 100, cm⟩ := ⟨by decide +kernel, by decide +kernel⟩
example : OpPy (.setLower (some 2) : Op PosUnit Rat String Rat) := trivial
example : ∃ s : RealRaw PosUnit Rat, RealRaw.init (some 0) (some 1) (.unit metre) = .ok s := ⟨_, rfl⟩
example : ∃ s : IntRaw, IntRaw.init (.float 0) (.float 1) = .ok s := ⟨_, rfl⟩
example : setCategories [.str "x"] (.collection [.str "a", .str "b"]) = ([.str "a", .str "b"], .ok ()) := by decide

end examples

end Verif.Bounds
