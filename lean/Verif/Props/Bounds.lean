import Verif.Model.Bounds
/-!
# Properties C05 - C14 of bounds, values and unit conversion
-/

set_option linter.unusedSectionVars false
set_option linter.dupNamespace false

namespace Verif.Bounds
open Verif.Py

variable {U D α S P : Type} [LinearOrder α] [DecidableEq U] [DecidableEq D] [DecidableEq S]

/-! ## Specification: bounds as sets of outcomes -/

/-- an outcome: a quantity of some dimension with its magnitude in root units, an integer, a category, a component, or a
molecular structure -/
inductive Outcome (D α S : Type) where
  | quantity (d : D) (r : α)
  | integer (n : Int)
  | category (s : S)
  | component (s : S)
  | molecule

/-- the outcomes a bounds admits -/
def Admits (us : UnitSys U D α) : Bounds U α S → Outcome D α S → Prop
  | .real b, .quantity d r => d = us.root b.units ∧ ∃ x, b.lower ≤ x ∧ x ≤ b.upper ∧ r = us.toRoot b.units x
  | .int b, .integer n => b.lower ≤ n ∧ n ≤ b.upper
  | .cat l, .category s => s ∈ l
  | .comp l, .component s => s ∈ l
  | .mol, .molecule => True
  | _, _ => False

/-- the kind of a bounds -/
inductive Kind where
  | real | int | cat | comp | mol
  deriving DecidableEq

def kind : Bounds U α S → Kind
  | .real _ => .real | .int _ => .int | .cat _ => .cat | .comp _ => .comp | .mol => .mol

/-- well-formed bounds: nonempty intervals; integer endpoints are ones a float can represent (what the setters enforce) -/
def Valid : Bounds U α S → Prop
  | .real b => b.lower ≤ b.upper
  | .int b => b.lower ≤ b.upper ∧ floatOfInt b.lower = some b.lower ∧ floatOfInt b.upper = some b.upper
  | _ => True

/-! ## Conversion lemmas -/

section lawful
variable {us : UnitSys U D α} (hl : us.Lawful)
include hl

theorem toRoot_le_iff (u : U) (x y : α) : us.toRoot u x ≤ us.toRoot u y ↔ x ≤ y := by
  constructor
  · intro h
    rcases le_total x y with h' | h'
    · exact h'
    · have := hl.mono u _ _ h'
      have e : us.toRoot u x = us.toRoot u y := le_antisymm h this
      have : x = y := by rw [← hl.of_to u x, e, hl.of_to]
      exact le_of_eq this
  · exact hl.mono u x y

theorem ofRoot_le_iff (u : U) (x y : α) : us.ofRoot u x ≤ us.ofRoot u y ↔ x ≤ y := by
  rw [← toRoot_le_iff hl u, hl.to_of, hl.to_of]

theorem convert_ok (x : α) (u v : U) (h : us.root u = us.root v) :
    convertUnits us x u v = .ok (us.ofRoot v (us.toRoot u x)) := by
  unfold convertUnits
  by_cases e : u = v
  · subst e; simp [hl.of_to]
  · simp [e, h]

theorem convert_err (x : α) (u v : U) (h : us.root u ≠ us.root v) :
    convertUnits us x u v = .error .incompatibleUnits := by
  unfold convertUnits
  have e : u ≠ v := fun e => h (by rw [e])
  simp [e, h]

theorem convertB (b : RealB U α) (v : U) :
    b.convert us v = if us.root b.units = us.root v then
      some (us.ofRoot v (us.toRoot b.units b.lower), us.ofRoot v (us.toRoot b.units b.upper)) else none := by
  unfold RealB.convert
  by_cases h : us.root b.units = us.root v
  · simp [convert_ok hl _ _ _ h, h]
  · simp [convert_err hl _ _ _ h, h]

theorem containsB_real (a b : RealB U α) :
    containsB us (.real a : Bounds U α S) (.real b) = true ↔
      us.root a.units = us.root b.units ∧ us.toRoot a.units a.lower ≤ us.toRoot b.units b.lower ∧
        us.toRoot b.units b.upper ≤ us.toRoot a.units a.upper := by
  unfold containsB
  simp only [convertB hl]
  by_cases h : us.root a.units = us.root b.units
  · simp only [h, if_true, true_and, Bool.and_eq_true, decide_eq_true_eq, ge_iff_le]
    rw [← toRoot_le_iff hl b.units, ← toRoot_le_iff hl b.units b.upper, hl.to_of, hl.to_of]
  · simp [h]

end lawful

/-! ## C05, C06: containment is inclusion -/

theorem contains_bounds (us : UnitSys U D α) (a b : Bounds U α S) :
    contains us a (.bounds b : Arg U α S P) = .ok (containsB us a b) := rfl

/-- C05. Containment of real bounds: an answer (never an exception), `True` exactly when the units are commensurable and
every quantity of the argument is a quantity of the receiver. -/
theorem C05_real_contains (us : UnitSys U D α) (hl : us.Lawful) (a b : RealB U α) (hb : b.lower ≤ b.upper) :
    ∃ r, contains us (.real a) (.bounds (.real b) : Arg U α S P) = .ok r ∧
      (r = true ↔ us.root a.units = us.root b.units ∧
        ∀ q : Outcome D α S, Admits us (.real b) q → Admits us (.real a) q) := by
  refine ⟨_, contains_bounds us _ _, ?_⟩
  rw [containsB_real hl]
  constructor
  · rintro ⟨h, h1, h2⟩
    refine ⟨h, ?_⟩
    intro q hq
    cases q with
    | quantity d r =>
      obtain ⟨hd, x, hx1, hx2, hr⟩ := hq
      refine ⟨hd.trans h.symm, us.ofRoot a.units r, ?_, ?_, (hl.to_of _ _).symm⟩
      · rw [← toRoot_le_iff hl a.units, hl.to_of, hr]
        exact le_trans h1 (hl.mono _ _ _ hx1)
      · rw [← toRoot_le_iff hl a.units, hl.to_of, hr]
        exact le_trans (hl.mono _ _ _ hx2) h2
    | _ => exact hq.elim
  · rintro ⟨h, hq⟩
    refine ⟨h, ?_, ?_⟩
    · obtain ⟨_, x, hx1, _, hr⟩ := hq (.quantity (us.root b.units) (us.toRoot b.units b.lower))
        ⟨rfl, b.lower, le_refl _, hb, rfl⟩
      rw [hr]; exact hl.mono _ _ _ hx1
    · obtain ⟨_, x, _, hx2, hr⟩ := hq (.quantity (us.root b.units) (us.toRoot b.units b.upper))
        ⟨rfl, b.upper, hb, le_refl _, rfl⟩
      rw [hr]; exact hl.mono _ _ _ hx2

/-- C06. For all kinds but real: `True` exactly when the kinds agree and every outcome admitted by the argument is admitted
by the receiver. -/
theorem C06_contains (us : UnitSys U D α) (a b : Bounds U α S) (ha : kind a ≠ .real) (hb : Valid b) :
    ∃ r, contains us a (.bounds b : Arg U α S P) = .ok r ∧
      (r = true ↔ kind a = kind b ∧ ∀ q : Outcome D α S, Admits us b q → Admits us a q) := by
  refine ⟨_, contains_bounds us _ _, ?_⟩
  cases a with
  | real a => exact absurd rfl ha
  | int a =>
    cases b with
    | int b =>
      simp only [containsB, kind, true_and, Bool.and_eq_true, decide_eq_true_eq, ge_iff_le]
      constructor
      · rintro ⟨h1, h2⟩ q hq
        cases q with
        | integer n => exact ⟨by have := hq.1; omega, by have := hq.2; omega⟩
        | _ => exact hq.elim
      · intro h
        have hv : b.lower ≤ b.upper := hb.1
        have h1 := h (.integer b.lower) ⟨by omega, hv⟩
        have h2 := h (.integer b.upper) ⟨hv, by omega⟩
        exact ⟨h1.1, h2.2⟩
    | _ => simp [containsB, kind]
  | cat a =>
    cases b with
    | cat b =>
      simp only [containsB, kind, true_and, List.all_eq_true, decide_eq_true_eq]
      constructor
      · intro h q hq
        cases q with
        | category s => exact h s hq
        | _ => exact hq.elim
      · intro h s hs; exact h (.category s) hs
    | _ => simp [containsB, kind]
  | comp a =>
    cases b with
    | comp b =>
      simp only [containsB, kind, true_and, List.all_eq_true, decide_eq_true_eq]
      constructor
      · intro h q hq
        cases q with
        | component s => exact h s hq
        | _ => exact hq.elim
      · intro h s hs; exact h (.component s) hs
    | _ => simp [containsB, kind]
  | mol => cases b <;> simp [containsB, kind]

/-! ## C07: preorder -/

/-- C07, reflexivity -/
theorem C07_refl (us : UnitSys U D α) (hl : us.Lawful) (a : Bounds U α S) :
    contains us a (.bounds a : Arg U α S P) = .ok true := by
  rw [contains_bounds]
  cases a with
  | real a => rw [(containsB_real hl a a).2 ⟨rfl, le_refl _, le_refl _⟩]
  | int a => simp [containsB]
  | cat a => simp [containsB]
  | comp a => simp [containsB]
  | mol => simp [containsB]

theorem containsB_trans (us : UnitSys U D α) (hl : us.Lawful) (a b c : Bounds U α S)
    (h1 : containsB us a b = true) (h2 : containsB us b c = true) : containsB us a c = true := by
  cases a <;> cases b <;> first
    | (simp [containsB] at h1; done)
    | (cases c <;> first
        | (simp [containsB] at h2; done)
        | skip)
  · rename_i a b c
    rw [containsB_real hl] at *
    exact ⟨h1.1.trans h2.1, le_trans h1.2.1 h2.2.1, le_trans h2.2.2 h1.2.2⟩
  · simp [containsB] at *; omega
  · simp [containsB] at *; exact fun s hs => h1 s (h2 s hs)
  · simp [containsB] at *; exact fun s hs => h1 s (h2 s hs)
  · simp [containsB]

/-- C07, transitivity -/
theorem C07_trans (us : UnitSys U D α) (hl : us.Lawful) (a b c : Bounds U α S)
    (h1 : contains us a (.bounds b : Arg U α S P) = .ok true)
    (h2 : contains us b (.bounds c : Arg U α S P) = .ok true) :
    contains us a (.bounds c : Arg U α S P) = .ok true := by
  rw [contains_bounds] at *
  injection h1 with h1; injection h2 with h2
  rw [containsB_trans us hl a b c h1 h2]

/-! ## Constructors -/

theorem mkReal_some (l h : α) (u : U) :
    mkReal (some l) (some h) u = if h < l then .error .valueError else .ok { lower := l, upper := h, units := u } := by
  unfold mkReal RealRaw.init RealRaw.setUnits RealRaw.setLower RealRaw.setUpper
  by_cases e : h < l <;> simp [e, RealRaw.get?]

theorem mkReal_none_left (h : RealArg α) (u : U) : mkReal none h u = .error .valueError := rfl

theorem mkReal_none_right (l : RealArg α) (u : U) : mkReal l none u = .error .valueError := by
  cases l <;> rfl

theorem mkInt_eq (l h : Int) (hl : floatOfInt l = some l) (hh : floatOfInt h = some h) :
    mkInt l h = if h < l then .error .valueError else .ok { lower := l, upper := h } := by
  unfold mkInt IntRaw.init IntRaw.setLower IntRaw.setUpper NumArg.check
  by_cases e : h < l <;> simp [hl, hh, e, IntRaw.get?]

theorem check_ok {n m : Int} (h : (NumArg.int n).check = .ok m) : m = n ∧ floatOfInt n = some n := by
  unfold NumArg.check at h
  simp only at h
  split at h
  · cases h
  · rename_i k hk
    by_cases e : n ≠ k
    · simp [e] at h
    · rw [if_neg e] at h
      simp only [ne_eq, Decidable.not_not] at e
      injection h with h
      exact ⟨h.symm, by rw [hk, e]⟩

theorem mkInt_ok {l h : Int} {b : IntB} (e : mkInt l h = .ok b) :
    b = { lower := l, upper := h } ∧ l ≤ h ∧ floatOfInt l = some l ∧ floatOfInt h = some h := by
  cases c1 : (NumArg.int l).check with
  | error er =>
    unfold mkInt IntRaw.init IntRaw.setLower at e
    rw [c1] at e; cases e
  | ok n =>
    obtain ⟨rfl, f1⟩ := check_ok c1
    cases c2 : (NumArg.int h).check with
    | error er =>
      unfold mkInt IntRaw.init IntRaw.setLower IntRaw.setUpper at e
      rw [c1] at e
      simp only [c2] at e; cases e
    | ok m =>
      obtain ⟨rfl, f2⟩ := check_ok c2
      rw [mkInt_eq _ _ f1 f2] at e
      split at e
      · cases e
      · injection e with e
        exact ⟨e.symm, by omega, f1, f2⟩

/-! ## C08: union -/

/-- what an argument stands for -/
def Resolves (a : Arg U α S P) (b : Bounds U α S) : Prop := resolve a = .ok b

theorem admits_kind {self : Bounds U α S} {a : Arg U α S P} (h : admits self a = true) {b : Bounds U α S}
    (hb : resolve a = .ok b) : kind b = kind self := by
  cases a with
  | none => cases self <;> cases h
  | other => cases self <;> cases h
  | bounds c =>
    have : c = b := by injection hb
    subst this
    cases self <;> cases c <;> first | rfl | cases h
  | value v =>
    have hb' : toBounds v = .ok b := hb
    cases v with
    | nominalReal x u =>
      cases self <;> first | (cases h; done) | skip
      simp only [toBounds] at hb'
      cases e : (mkReal x x u) <;> rw [e] at hb' <;> cases hb'; rfl
    | normalReal x s u =>
      cases self <;> first | (cases h; done) | skip
      simp only [toBounds] at hb'
      cases e : (mkReal x x u) <;> rw [e] at hb' <;> cases hb'; rfl
    | uniformReal x y u =>
      cases self <;> first | (cases h; done) | skip
      simp only [toBounds] at hb'
      cases e : (mkReal x y u) <;> rw [e] at hb' <;> cases hb'; rfl
    | nominalInteger n =>
      cases self <;> first | (cases h; done) | skip
      simp only [toBounds] at hb'
      cases e : (mkInt n n) <;> rw [e] at hb' <;> cases hb'; rfl
    | uniformInteger n m =>
      cases self <;> first | (cases h; done) | skip
      simp only [toBounds] at hb'
      cases e : (mkInt n m) <;> rw [e] at hb' <;> cases hb'; rfl
    | nominalCategorical c =>
      cases self <;> first | (cases h; done) | skip
      cases c <;> simp only [toBounds] at hb' <;> cases hb'
      rfl
    | discreteCategorical p =>
      cases self <;> first | (cases h; done) | skip
      cases p with
      | none => cases hb'
      | some p =>
        simp only [toBounds] at hb'
        generalize mkCategories _ = m at hb'
        cases m <;> cases hb'; rfl
    | nominalComposition p =>
      cases self <;> first | (cases h; done) | skip
      simp only [toBounds] at hb'
      generalize mkCategories _ = m at hb'
      cases m <;> cases hb'; rfl
    | empiricalFormula p =>
      cases self <;> first | (cases h; done) | skip
      cases p with
      | none => cases hb'
      | some p =>
        simp only [toBounds] at hb'
        generalize mkCategories _ = m at hb'
        cases m <;> cases hb'; rfl
    | smiles => cases self <;> first | (cases h; done) | (cases hb'; rfl)
    | inchi => cases self <;> first | (cases h; done) | (cases hb'; rfl)

theorem contains_resolved (us : UnitSys U D α) (c : Bounds U α S) (a : Arg U α S P) (b : Bounds U α S)
    (h : resolve a = .ok b) : contains us c a = .ok (containsB us c b) := by
  cases a with
  | none => cases h
  | other => cases h
  | bounds d => injection h with h; subst h; rfl
  | value v =>
    have h' : toBounds v = .ok b := h
    simp [contains, baseContains, h']

/-- loop specification for reals -/
theorem unionRealLoop_spec (us : UnitSys U D α) (hl : us.Lawful) (unit : U) (others : List (Arg U α S P)) :
    ∀ lo hi lo' hi', unionRealLoop us unit (lo, hi) others = .ok (lo', hi') →
      lo' ≤ lo ∧ hi ≤ hi' ∧
      (∀ a ∈ others, ∃ b : RealB U α, resolve a = .ok (.real b) ∧ us.root b.units = us.root unit ∧
        us.toRoot unit lo' ≤ us.toRoot b.units b.lower ∧ us.toRoot b.units b.upper ≤ us.toRoot unit hi') ∧
      (∀ x, (us.toRoot unit lo ≥ x ∧ ∀ a ∈ others, ∀ b : RealB U α, resolve a = .ok (.real b) →
          x ≤ us.toRoot b.units b.lower) → x ≤ us.toRoot unit lo') ∧
      (∀ x, (us.toRoot unit hi ≤ x ∧ ∀ a ∈ others, ∀ b : RealB U α, resolve a = .ok (.real b) →
          us.toRoot b.units b.upper ≤ x) → us.toRoot unit hi' ≤ x) := by
  induction others with
  | nil =>
    intro lo hi lo' hi' h
    injection h with h; injection h with h1 h2; subst h1; subst h2
    exact ⟨le_refl _, le_refl _, by simp, fun x hx => hx.1, fun x hx => hx.1⟩
  | cons a rest ih =>
    intro lo hi lo' hi' h
    unfold unionRealLoop at h
    split at h
    · cases h
    · rename_i b hb
      rw [convertB hl] at h
      by_cases hr : us.root b.units = us.root unit
      · rw [if_pos hr] at h
        simp only at h
        obtain ⟨h1, h2, h3, h4, h5⟩ := ih _ _ _ _ h
        have hlo1 : lo' ≤ lo := by
          split at h1
          · rename_i hlt; exact le_trans h1 (le_of_lt hlt)
          · exact h1
        have hlo2 : lo' ≤ us.ofRoot unit (us.toRoot b.units b.lower) := by
          split at h1
          · exact h1
          · rename_i hlt; exact le_trans h1 (le_of_not_gt hlt)
        have hhi1 : hi ≤ hi' := by
          split at h2
          · rename_i hlt; exact le_trans (le_of_lt hlt) h2
          · exact h2
        have hhi2 : us.ofRoot unit (us.toRoot b.units b.upper) ≤ hi' := by
          split at h2
          · exact h2
          · rename_i hlt; exact le_trans (le_of_not_gt hlt) h2
        refine ⟨hlo1, hhi1, ?_, ?_, ?_⟩
        · intro a' ha'
          rcases List.mem_cons.1 ha' with rfl | ha'
          · refine ⟨b, hb, hr, ?_, ?_⟩
            · have := hl.mono unit _ _ hlo2; rwa [hl.to_of] at this
            · have := hl.mono unit _ _ hhi2; rwa [hl.to_of] at this
          · exact h3 a' ha'
        · intro x hx
          apply h4
          refine ⟨?_, fun a' ha' => hx.2 a' (List.mem_cons_of_mem _ ha')⟩
          split
          · rw [hl.to_of]; exact hx.2 a List.mem_cons_self b hb
          · exact hx.1
        · intro x hx
          apply h5
          refine ⟨?_, fun a' ha' => hx.2 a' (List.mem_cons_of_mem _ ha')⟩
          split
          · rw [hl.to_of]; exact hx.2 a List.mem_cons_self b hb
          · exact hx.1
      · rw [if_neg hr] at h; cases h
    · cases h

theorem unionRealLoop_succeeds (us : UnitSys U D α) (hl : us.Lawful) (unit : U) (others : List (Arg U α S P))
    (h : ∀ a ∈ others, ∃ b : RealB U α, resolve a = .ok (.real b) ∧ us.root b.units = us.root unit) :
    ∀ p, ∃ r, unionRealLoop us unit p others = .ok r := by
  induction others with
  | nil => intro p; exact ⟨p, rfl⟩
  | cons a rest ih =>
    rintro ⟨lo, hi⟩
    obtain ⟨b, hb, hr⟩ := h a List.mem_cons_self
    unfold unionRealLoop
    rw [hb]
    simp only [convertB hl, if_pos hr]
    exact ih (fun a' ha' => h a' (List.mem_cons_of_mem _ ha')) _

theorem unionIntLoop_spec (others : List (Arg U α S P)) :
    ∀ lo hi lo' hi', unionIntLoop (lo, hi) others = .ok (lo', hi') →
      lo' ≤ lo ∧ hi ≤ hi' ∧
      (∀ a ∈ others, ∃ b : IntB, resolve a = .ok (.int b) ∧ lo' ≤ b.lower ∧ b.upper ≤ hi') ∧
      (lo' = lo ∨ ∃ a ∈ others, ∃ b : IntB, resolve a = .ok (.int b) ∧ lo' = b.lower) ∧
      (hi' = hi ∨ ∃ a ∈ others, ∃ b : IntB, resolve a = .ok (.int b) ∧ hi' = b.upper) := by
  induction others with
  | nil =>
    intro lo hi lo' hi' h
    injection h with h; injection h with h1 h2; subst h1; subst h2
    exact ⟨by omega, by omega, by simp, .inl rfl, .inl rfl⟩
  | cons a rest ih =>
    intro lo hi lo' hi' h
    unfold unionIntLoop at h
    split at h
    · cases h
    · rename_i b hb
      obtain ⟨h1, h2, h3, h4, h5⟩ := ih _ _ _ _ h
      refine ⟨by split at h1 <;> omega, by split at h2 <;> omega, ?_, ?_, ?_⟩
      · intro a' ha'
        rcases List.mem_cons.1 ha' with rfl | ha'
        · exact ⟨b, hb, by split at h1 <;> omega, by split at h2 <;> omega⟩
        · exact h3 a' ha'
      · rcases h4 with h4 | ⟨a', ha', b', hb', e⟩
        · split at h4
          · exact .inr ⟨a, List.mem_cons_self, b, hb, h4⟩
          · exact .inl h4
        · exact .inr ⟨a', List.mem_cons_of_mem _ ha', b', hb', e⟩
      · rcases h5 with h5 | ⟨a', ha', b', hb', e⟩
        · split at h5
          · exact .inr ⟨a, List.mem_cons_self, b, hb, h5⟩
          · exact .inl h5
        · exact .inr ⟨a', List.mem_cons_of_mem _ ha', b', hb', e⟩
    · cases h

theorem unionIntLoop_succeeds (others : List (Arg U α S P))
    (h : ∀ a ∈ others, ∃ b : IntB, resolve a = .ok (.int b)) :
    ∀ p, ∃ r, unionIntLoop p others = .ok r := by
  induction others with
  | nil => intro p; exact ⟨p, rfl⟩
  | cons a rest ih =>
    rintro ⟨lo, hi⟩
    obtain ⟨b, hb⟩ := h a List.mem_cons_self
    unfold unionIntLoop
    rw [hb]
    exact ih (fun a' ha' => h a' (List.mem_cons_of_mem _ ha')) _

theorem mem_setUnion (a b : List S) (s : S) : s ∈ setUnion a b ↔ s ∈ a ∨ s ∈ b := by
  unfold setUnion
  by_cases h : s ∈ a <;> simp [h]

theorem unionSetLoop_spec (pick : Bounds U α S → Option (List S)) (others : List (Arg U α S P)) :
    ∀ acc r, unionSetLoop pick acc others = .ok r →
      (∀ a ∈ others, ∃ b l, resolve a = .ok b ∧ pick b = some l) ∧
      ∀ s, s ∈ r ↔ s ∈ acc ∨ ∃ a ∈ others, ∃ b l, resolve a = .ok b ∧ pick b = some l ∧ s ∈ l := by
  induction others with
  | nil =>
    intro acc r h
    injection h with h; subst h
    simp
  | cons a rest ih =>
    intro acc r h
    unfold unionSetLoop at h
    split at h
    · cases h
    · rename_i b hb
      split at h
      · rename_i l hp
        obtain ⟨h1, h2⟩ := ih _ _ h
        refine ⟨?_, ?_⟩
        · intro a' ha'
          rcases List.mem_cons.1 ha' with rfl | ha'
          · exact ⟨b, l, hb, hp⟩
          · exact h1 a' ha'
        · intro s
          rw [h2 s, mem_setUnion]
          constructor
          · rintro ((h | h) | ⟨a', ha', b', l', x⟩)
            · exact .inl h
            · exact .inr ⟨a, List.mem_cons_self, b, l, hb, hp, h⟩
            · exact .inr ⟨a', List.mem_cons_of_mem _ ha', b', l', x⟩
          · rintro (h | ⟨a', ha', b', l', x1, x2, x3⟩)
            · exact .inl (.inl h)
            · rcases List.mem_cons.1 ha' with rfl | ha'
              · rw [hb] at x1; injection x1 with x1; subst x1
                rw [hp] at x2; injection x2 with x2; subst x2
                exact .inl (.inr x3)
              · exact .inr ⟨a', ha', b', l', x1, x2, x3⟩
      · cases h

theorem unionSetLoop_succeeds (pick : Bounds U α S → Option (List S)) (others : List (Arg U α S P))
    (h : ∀ a ∈ others, ∃ b l, resolve a = .ok b ∧ pick b = some l) :
    ∀ acc, ∃ r, unionSetLoop pick acc others = .ok r := by
  induction others with
  | nil => intro p; exact ⟨p, rfl⟩
  | cons a rest ih =>
    intro acc
    obtain ⟨b, l, hb, hp⟩ := h a List.mem_cons_self
    unfold unionSetLoop
    rw [hb]; simp only [hp]
    exact ih (fun a' ha' => h a' (List.mem_cons_of_mem _ ha')) _

theorem map_ok {ε A B : Type} {x : Except ε A} {f : A → B} {b : B} (h : x.map f = .ok b) :
    ∃ a, x = .ok a ∧ b = f a := by
  cases x with
  | error e => cases h
  | ok a => injection h with h; exact ⟨a, rfl, h.symm⟩

theorem toBounds_valid {v : Value U α S P} {b : Bounds U α S} (h : toBounds v = .ok b) : Valid b := by
  cases v with
  | nominalReal x u =>
    obtain ⟨r, hr, rfl⟩ := map_ok h
    cases x with
    | none => cases hr
    | some x =>
      rw [mkReal_some] at hr
      split at hr
      · cases hr
      · injection hr with hr; subst hr; exact le_refl _
  | normalReal x s u =>
    obtain ⟨r, hr, rfl⟩ := map_ok h
    cases x with
    | none => cases hr
    | some x =>
      rw [mkReal_some] at hr
      split at hr
      · cases hr
      · injection hr with hr; subst hr; exact le_refl _
  | uniformReal x y u =>
    obtain ⟨r, hr, rfl⟩ := map_ok h
    cases x with
    | none => cases hr
    | some x =>
      cases y with
      | none => cases hr
      | some y =>
        rw [mkReal_some] at hr
        split at hr
        · cases hr
        · rename_i hlt
          injection hr with hr; subst hr; exact le_of_not_gt hlt
  | nominalInteger n =>
    obtain ⟨r, hr, rfl⟩ := map_ok h
    obtain ⟨rfl, h1, h2, h3⟩ := mkInt_ok hr
    exact ⟨h1, h2, h3⟩
  | uniformInteger n m =>
    obtain ⟨r, hr, rfl⟩ := map_ok h
    obtain ⟨rfl, h1, h2, h3⟩ := mkInt_ok hr
    exact ⟨h1, h2, h3⟩
  | nominalCategorical c =>
    cases c <;> simp only [toBounds] at h <;> obtain ⟨r, hr, rfl⟩ := map_ok h <;> trivial
  | discreteCategorical c =>
    cases c with
    | none => cases h
    | some c => obtain ⟨r, hr, rfl⟩ := map_ok h; trivial
  | nominalComposition c => obtain ⟨r, hr, rfl⟩ := map_ok h; trivial
  | empiricalFormula c =>
    cases c with
    | none => cases h
    | some c => obtain ⟨r, hr, rfl⟩ := map_ok h; trivial
  | smiles => cases h; trivial
  | inchi => cases h; trivial

/-- arguments that are bounds are valid ones -/
def ArgValid : Arg U α S P → Prop
  | .bounds b => Valid b
  | _ => True

theorem resolve_valid {a : Arg U α S P} (ha : ArgValid a) {b : Bounds U α S} (h : resolve a = .ok b) : Valid b := by
  cases a with
  | none => cases h
  | other => cases h
  | bounds c => injection h with h; subst h; exact ha
  | value v => exact toBounds_valid h

/-- commensurability of two bounds: same kind, and for reals the same root units -/
def Commensurable (us : UnitSys U D α) : Bounds U α S → Bounds U α S → Prop
  | .real a, .real b => us.root a.units = us.root b.units
  | a, b => kind a = kind b

/-- the type test of `union`: a bounds or value of the receiver's kind. Written against kinds, not classes. -/
def valueKind : Value U α S P → Kind
  | .nominalReal .. => .real | .normalReal .. => .real | .uniformReal .. => .real
  | .nominalInteger .. => .int | .uniformInteger .. => .int
  | .nominalCategorical .. => .cat | .discreteCategorical .. => .cat
  | .nominalComposition .. => .comp | .empiricalFormula .. => .comp
  | .smiles => .mol | .inchi => .mol

def argKind : Arg U α S P → Option Kind
  | .bounds b => some (kind b)
  | .value v => some (valueKind v)
  | _ => none

theorem admits_iff (self : Bounds U α S) (a : Arg U α S P) : admits self a = true ↔ argKind a = some (kind self) := by
  cases a with
  | none => cases self <;> simp [admits, argKind]
  | other => cases self <;> simp [admits, argKind]
  | bounds b => cases self <;> cases b <;> simp [admits, argKind, kind]
  | value v => cases self <;> cases v <;> simp [admits, argKind, kind, valueKind]

theorem any_not_admits (self : Bounds U α S) (others : List (Arg U α S P)) :
    (others.any (fun x => !(admits self x))) = false ↔ ∀ a ∈ others, argKind a = some (kind self) := by
  simp only [List.any_eq_false, Bool.not_eq_true, Bool.not_eq_false', ← admits_iff]

theorem kind_real {b : Bounds U α S} (h : kind b = .real) : ∃ r, b = .real r := by cases b <;> first | exact ⟨_, rfl⟩ | cases h
theorem kind_int {b : Bounds U α S} (h : kind b = .int) : ∃ r, b = .int r := by cases b <;> first | exact ⟨_, rfl⟩ | cases h
theorem kind_cat {b : Bounds U α S} (h : kind b = .cat) : ∃ r, b = .cat r := by cases b <;> first | exact ⟨_, rfl⟩ | cases h
theorem kind_comp {b : Bounds U α S} (h : kind b = .comp) : ∃ r, b = .comp r := by cases b <;> first | exact ⟨_, rfl⟩ | cases h
theorem kind_mol {b : Bounds U α S} (h : kind b = .mol) : b = .mol := by cases b <;> first | rfl | cases h

/-- C08, first half: a successful union is a well-formed upper bound of the receiver and of every argument, and is contained
in every other upper bound. -/
theorem C08_union_lub (us : UnitSys U D α) (hl : us.Lawful) (self : Bounds U α S) (others : List (Arg U α S P))
    (hs : Valid self) (r : Bounds U α S) (h : union us self others = .ok r) :
    Valid r ∧
    contains us r (.bounds self : Arg U α S P) = .ok true ∧
    (∀ a ∈ others, contains us r a = .ok true) ∧
    (∀ c : Bounds U α S, contains us c (.bounds self : Arg U α S P) = .ok true →
      (∀ a ∈ others, contains us c a = .ok true) → contains us c (.bounds r : Arg U α S P) = .ok true) := by
  unfold union at h
  split at h
  · cases h
  rename_i hadm
  simp only [Bool.not_eq_true] at hadm
  rw [any_not_admits] at hadm
  have hkind : ∀ a ∈ others, ∀ b, resolve a = .ok b → kind b = kind self := by
    intro a ha b hb
    exact admits_kind ((admits_iff _ _).2 (hadm a ha)) hb
  cases self with
  | real a =>
    simp only at h
    split at h
    · cases h
    rename_i lo hi hloop
    obtain ⟨h1, h2, h3, h4, h5⟩ := unionRealLoop_spec us hl a.units others _ _ _ _ hloop
    have hv : lo ≤ hi := le_trans h1 (le_trans hs h2)
    rw [mkReal_some, if_neg (not_lt_of_ge hv)] at h
    injection h with h; subst h
    refine ⟨hv, ?_, ?_, ?_⟩
    · rw [contains_bounds, (containsB_real hl _ _).2]
      exact ⟨rfl, hl.mono _ _ _ h1, hl.mono _ _ _ h2⟩
    · intro x hx
      obtain ⟨b, hb, hr, h6, h7⟩ := h3 x hx
      rw [contains_resolved us _ _ _ hb, (containsB_real hl _ _).2]
      exact ⟨hr.symm, h6, h7⟩
    · intro c hc1 hc2
      rw [contains_bounds] at *
      injection hc1 with hc1
      cases c with
      | real c =>
        rw [containsB_real hl] at hc1
        rw [(containsB_real hl _ _).2]
        have key : ∀ x ∈ others, ∀ b : RealB U α, resolve x = .ok (.real b) →
            us.toRoot c.units c.lower ≤ us.toRoot b.units b.lower ∧
            us.toRoot b.units b.upper ≤ us.toRoot c.units c.upper := by
          intro x hx b hb
          have := hc2 x hx
          rw [contains_resolved us _ _ _ hb] at this
          injection this with this
          rw [containsB_real hl] at this
          exact this.2
        refine ⟨hc1.1, ?_, ?_⟩
        · exact h4 _ ⟨hc1.2.1, fun x hx b hb => (key x hx b hb).1⟩
        · exact h5 _ ⟨hc1.2.2, fun x hx b hb => (key x hx b hb).2⟩
      | _ => simp [containsB] at hc1
  | int a =>
    simp only at h
    split at h
    · cases h
    rename_i lo hi hloop
    obtain ⟨h1, h2, h3, h4, h5⟩ := unionIntLoop_spec others _ _ _ _ hloop
    obtain ⟨r', hr', rfl⟩ := map_ok h
    obtain ⟨rfl, hv⟩ := mkInt_ok hr'
    refine ⟨hv, ?_, ?_, ?_⟩
    · rw [contains_bounds]
      have : containsB us (.int { lower := lo, upper := hi } : Bounds U α S) (.int a) = true := by
        simp only [containsB, Bool.and_eq_true, decide_eq_true_eq]; exact ⟨h1, h2⟩
      rw [this]
    · intro x hx
      obtain ⟨b, hb, h6, h7⟩ := h3 x hx
      rw [contains_resolved us _ _ _ hb]
      have : containsB us (.int { lower := lo, upper := hi } : Bounds U α S) (.int b) = true := by
        simp only [containsB, Bool.and_eq_true, decide_eq_true_eq]; exact ⟨h6, h7⟩
      rw [this]
    · intro c hc1 hc2
      rw [contains_bounds] at *
      injection hc1 with hc1
      cases c with
      | int c =>
        have key : ∀ x ∈ others, ∀ b : IntB, resolve x = .ok (.int b) → c.lower ≤ b.lower ∧ b.upper ≤ c.upper := by
          intro x hx b hb
          have := hc2 x hx
          rw [contains_resolved us _ _ _ hb] at this
          injection this with this
          simpa [containsB] using this
        have : containsB us (.int c : Bounds U α S) (.int { lower := lo, upper := hi }) = true := by
          simp only [containsB, Bool.and_eq_true, decide_eq_true_eq] at hc1 ⊢
          constructor
          · rcases h4 with h4 | ⟨x, hx, b, hb, e⟩
            · rw [h4]; exact hc1.1
            · rw [e]; exact (key x hx b hb).1
          · rcases h5 with h5 | ⟨x, hx, b, hb, e⟩
            · rw [h5]; exact hc1.2
            · rw [e]; exact (key x hx b hb).2
        rw [this]
      | _ => simp [containsB] at hc1
  | cat a =>
    obtain ⟨r', hr', rfl⟩ := map_ok h
    obtain ⟨h1, h2⟩ := unionSetLoop_spec pickCat others _ _ hr'
    refine ⟨trivial, ?_, ?_, ?_⟩
    · rw [contains_bounds]
      have : containsB us (.cat r' : Bounds U α S) (.cat a) = true := by
        simp only [containsB, List.all_eq_true, decide_eq_true_eq]
        exact fun s hs => (h2 s).2 (.inl hs)
      rw [this]
    · intro x hx
      obtain ⟨b, l, hb, hp⟩ := h1 x hx
      rw [contains_resolved us _ _ _ hb]
      obtain ⟨l', rfl⟩ := kind_cat (hkind x hx b hb)
      have : containsB us (.cat r' : Bounds U α S) (.cat l') = true := by
        simp only [containsB, List.all_eq_true, decide_eq_true_eq]
        exact fun s hs => (h2 s).2 (.inr ⟨x, hx, _, l', hb, rfl, hs⟩)
      rw [this]
    · intro c hc1 hc2
      rw [contains_bounds] at *
      injection hc1 with hc1
      cases c with
      | cat c =>
        have : containsB us (.cat c : Bounds U α S) (.cat r') = true := by
          simp only [containsB, List.all_eq_true, decide_eq_true_eq] at hc1 ⊢
          intro s hs
          rcases (h2 s).1 hs with h | ⟨x, hx, b, l, hb, hp, hsl⟩
          · exact hc1 s h
          · have := hc2 x hx
            rw [contains_resolved us _ _ _ hb] at this
            injection this with this
            obtain ⟨l', rfl⟩ := kind_cat (hkind x hx b hb)
            injection hp with hp; subst hp
            simp only [containsB, List.all_eq_true, decide_eq_true_eq] at this
            exact this s hsl
        rw [this]
      | _ => simp [containsB] at hc1
  | comp a =>
    obtain ⟨r', hr', rfl⟩ := map_ok h
    obtain ⟨h1, h2⟩ := unionSetLoop_spec pickComp others _ _ hr'
    refine ⟨trivial, ?_, ?_, ?_⟩
    · rw [contains_bounds]
      have : containsB us (.comp r' : Bounds U α S) (.comp a) = true := by
        simp only [containsB, List.all_eq_true, decide_eq_true_eq]
        exact fun s hs => (h2 s).2 (.inl hs)
      rw [this]
    · intro x hx
      obtain ⟨b, l, hb, hp⟩ := h1 x hx
      rw [contains_resolved us _ _ _ hb]
      obtain ⟨l', rfl⟩ := kind_comp (hkind x hx b hb)
      have : containsB us (.comp r' : Bounds U α S) (.comp l') = true := by
        simp only [containsB, List.all_eq_true, decide_eq_true_eq]
        exact fun s hs => (h2 s).2 (.inr ⟨x, hx, _, l', hb, rfl, hs⟩)
      rw [this]
    · intro c hc1 hc2
      rw [contains_bounds] at *
      injection hc1 with hc1
      cases c with
      | comp c =>
        have : containsB us (.comp c : Bounds U α S) (.comp r') = true := by
          simp only [containsB, List.all_eq_true, decide_eq_true_eq] at hc1 ⊢
          intro s hs
          rcases (h2 s).1 hs with h | ⟨x, hx, b, l, hb, hp, hsl⟩
          · exact hc1 s h
          · have := hc2 x hx
            rw [contains_resolved us _ _ _ hb] at this
            injection this with this
            obtain ⟨l', rfl⟩ := kind_comp (hkind x hx b hb)
            injection hp with hp; subst hp
            simp only [containsB, List.all_eq_true, decide_eq_true_eq] at this
            exact this s hsl
        rw [this]
      | _ => simp [containsB] at hc1
  | mol =>
    injection h with h; subst h
    refine ⟨trivial, rfl, ?_, fun c hc _ => hc⟩
    intro x hx
    have hk := hadm x hx
    cases x with
    | none => cases hk
    | other => cases hk
    | bounds b =>
      have : kind b = .mol := by simpa [argKind, kind] using hk
      rw [kind_mol this]; rfl
    | value v => cases v <;> first | rfl | (simp [argKind, valueKind, kind] at hk)

/-- C08, second half: union succeeds exactly when every argument is a bounds or value of the receiver's kind, has bounds,
and (for reals) has commensurable units. In every other case it raises. -/
theorem C08_union_succeeds_iff (us : UnitSys U D α) (hl : us.Lawful) (self : Bounds U α S)
    (others : List (Arg U α S P)) (hs : Valid self) (ho : ∀ a ∈ others, ArgValid a) :
    (∃ r, union us self others = .ok r) ↔
      ∀ a ∈ others, argKind a = some (kind self) ∧ ∃ b, resolve a = .ok b ∧ Commensurable us b self := by
  constructor
  · rintro ⟨r, h⟩
    have hlub := C08_union_lub us hl self others hs r h
    unfold union at h
    split at h
    · cases h
    rename_i hadm
    simp only [Bool.not_eq_true] at hadm
    rw [any_not_admits] at hadm
    intro a ha
    refine ⟨hadm a ha, ?_⟩
    cases self with
    | real s =>
      simp only at h
      split at h
      · cases h
      rename_i lo hi hloop
      obtain ⟨_, _, h3, _⟩ := unionRealLoop_spec us hl s.units others _ _ _ _ hloop
      obtain ⟨b, hb, hr, _⟩ := h3 a ha
      exact ⟨_, hb, hr⟩
    | int s =>
      simp only at h
      split at h
      · cases h
      rename_i lo hi hloop
      obtain ⟨_, _, h3, _⟩ := unionIntLoop_spec others _ _ _ _ hloop
      obtain ⟨b, hb, hr, _⟩ := h3 a ha
      exact ⟨_, hb, rfl⟩
    | cat s =>
      obtain ⟨r', hr', rfl⟩ := map_ok h
      obtain ⟨h1, h2⟩ := unionSetLoop_spec pickCat others _ _ hr'
      obtain ⟨b, l, hb, hp⟩ := h1 a ha
      refine ⟨b, hb, ?_⟩
      have hk := admits_kind ((admits_iff _ _).2 (hadm a ha)) hb
      obtain ⟨l', rfl⟩ := kind_cat hk
      exact hk
    | comp s =>
      obtain ⟨r', hr', rfl⟩ := map_ok h
      obtain ⟨h1, h2⟩ := unionSetLoop_spec pickComp others _ _ hr'
      obtain ⟨b, l, hb, hp⟩ := h1 a ha
      refine ⟨b, hb, ?_⟩
      have hk := admits_kind ((admits_iff _ _).2 (hadm a ha)) hb
      obtain ⟨l', rfl⟩ := kind_comp hk
      exact hk
    | mol =>
      have hk := hadm a ha
      cases a with
      | none => cases hk
      | other => cases hk
      | bounds b =>
        have : kind b = .mol := by simpa [argKind, kind] using hk
        rw [kind_mol this]; exact ⟨_, rfl, rfl⟩
      | value v => cases v <;> first | exact ⟨_, rfl, rfl⟩ | (simp [argKind, valueKind, kind] at hk)
  · intro h
    have hadm : ∀ a ∈ others, argKind a = some (kind self) := fun a ha => (h a ha).1
    have hadm' := (any_not_admits self others).2 hadm
    have hkind : ∀ a ∈ others, ∀ b, resolve a = .ok b → kind b = kind self := by
      intro a ha b hb
      exact admits_kind ((admits_iff _ _).2 (hadm a ha)) hb
    unfold union
    rw [hadm']
    simp only [Bool.false_eq_true, if_false]
    cases self with
    | real s =>
      obtain ⟨⟨lo, hi⟩, hloop⟩ := unionRealLoop_succeeds us hl s.units others (by
        intro a ha
        obtain ⟨_, b, hb, hc⟩ := h a ha
        obtain ⟨r, rfl⟩ := kind_real (hkind a ha b hb)
        exact ⟨r, hb, hc⟩) (s.lower, s.upper)
      obtain ⟨h1, h2, _⟩ := unionRealLoop_spec us hl s.units others _ _ _ _ hloop
      simp only [hloop, mkReal_some]
      rw [if_neg (not_lt_of_ge (le_trans h1 (le_trans hs h2)))]
      exact ⟨_, rfl⟩
    | int s =>
      obtain ⟨⟨lo, hi⟩, hloop⟩ := unionIntLoop_succeeds others (by
        intro a ha
        obtain ⟨_, b, hb, hc⟩ := h a ha
        obtain ⟨r, rfl⟩ := kind_int (hkind a ha b hb)
        exact ⟨r, hb⟩) (s.lower, s.upper)
      obtain ⟨h1, h2, _, h4, h5⟩ := unionIntLoop_spec others _ _ _ _ hloop
      have f1 : floatOfInt lo = some lo := by
        rcases h4 with h4 | ⟨a, ha, b, hb, e⟩
        · rw [h4]; exact hs.2.1
        · rw [e]; exact (resolve_valid (ho a ha) hb).2.1
      have f2 : floatOfInt hi = some hi := by
        rcases h5 with h5 | ⟨a, ha, b, hb, e⟩
        · rw [h5]; exact hs.2.2
        · rw [e]; exact (resolve_valid (ho a ha) hb).2.2
      simp only [hloop, mkInt_eq lo hi f1 f2]
      have hs1 := hs.1
      rw [if_neg (by omega)]
      exact ⟨_, rfl⟩
    | cat s =>
      obtain ⟨r, hr⟩ := unionSetLoop_succeeds pickCat others (by
        intro a ha
        obtain ⟨_, b, hb, hc⟩ := h a ha
        obtain ⟨l, rfl⟩ := kind_cat (hkind a ha b hb)
        exact ⟨_, l, hb, rfl⟩) s
      simp only [hr]; exact ⟨_, rfl⟩
    | comp s =>
      obtain ⟨r, hr⟩ := unionSetLoop_succeeds pickComp others (by
        intro a ha
        obtain ⟨_, b, hb, hc⟩ := h a ha
        obtain ⟨l, rfl⟩ := kind_comp (hkind a ha b hb)
        exact ⟨_, l, hb, rfl⟩) s
      simp only [hr]; exact ⟨_, rfl⟩
    | mol => exact ⟨_, rfl⟩

end Verif.Bounds
