import Verif.Props.BoundsMore
import Verif.Props.Strings
import Verif.Props.Template
import Verif.Props.MakeValue
import Verif.Props.SetAlias
/-!
# Which exception is raised, and what is stored when none is

Supplements to C08, C10, C12, C13, C17, C23, C25, C51 and C63: the theorems elsewhere say when a call fails; these say with what.
-/

set_option linter.unusedSimpArgs false
set_option linter.unusedVariables false
set_option linter.unusedSectionVars false

namespace Verif.Bounds
open Verif.Py

variable {U D α S P : Type} [LinearOrder α] [DecidableEq U] [DecidableEq D] [DecidableEq S]

/-- C10: a real setter stores the number unless the other bound is there and is on the wrong side of it; anything else it refuses with ValueError, and then
nothing is changed. -/
theorem C10_real_setters (s : RealRaw U α) :
    (s.setLower none = (s, .error .valueError) ∧ s.setUpper none = (s, .error .valueError)) ∧
    ∀ x : α, ((∃ u, s.upper = some u ∧ u < x) → s.setLower (some x) = (s, .error .valueError)) ∧
      ((∀ u, s.upper = some u → x ≤ u) → s.setLower (some x) = ({ units := s.units, lower := some x, upper := s.upper }, .ok ())) ∧
      ((∃ l, s.lower = some l ∧ x < l) → s.setUpper (some x) = (s, .error .valueError)) ∧
      ((∀ l, s.lower = some l → l ≤ x) → s.setUpper (some x) = ({ units := s.units, lower := s.lower, upper := some x }, .ok ())) := by
  refine ⟨⟨rfl, rfl⟩, fun x => ⟨?_, ?_, ?_, ?_⟩⟩
  · rintro ⟨u, h, hu⟩; simp [RealRaw.setLower, h, hu]
  · intro h
    cases hs : s.upper with
    | none => simp [RealRaw.setLower, hs]
    | some u => simp [RealRaw.setLower, hs, not_lt.2 (h u hs)]
  · rintro ⟨l, h, hl⟩; simp [RealRaw.setUpper, h, hl]
  · intro h
    cases hs : s.lower with
    | none => simp [RealRaw.setUpper, hs]
    | some l => simp [RealRaw.setUpper, hs, not_lt.2 (h l hs)]

/-- C10: the same of the integer setters, for integers that floats represent (C13) and floats that are whole. -/
theorem C10_int_setters (s : IntRaw) (v : NumArg) (n : Int) (hv : (v = .int n ∧ floatOfInt n = some n) ∨ v = .float n) :
    ((∃ u, s.upper = some u ∧ u < n) → s.setLower v = (s, .error .valueError)) ∧
    ((∀ u, s.upper = some u → n ≤ u) → s.setLower v = ({ lower := some n, upper := s.upper }, .ok ())) ∧
    ((∃ l, s.lower = some l ∧ n < l) → s.setUpper v = (s, .error .valueError)) ∧
    ((∀ l, s.lower = some l → l ≤ n) → s.setUpper v = ({ lower := s.lower, upper := some n }, .ok ())) := by
  have hc : v.check = .ok n := by
    rcases hv with ⟨rfl, h⟩ | rfl
    · simp [NumArg.check, h]
    · simp [NumArg.check]
  refine ⟨?_, ?_, ?_, ?_⟩
  · rintro ⟨u, h, hu⟩; simp [IntRaw.setLower, hc, h, hu]
  · intro h
    cases hs : s.upper with
    | none => simp [IntRaw.setLower, hc, hs]
    | some u => simp [IntRaw.setLower, hc, hs, not_lt.2 (h u hs)]
  · rintro ⟨l, h, hl⟩; simp [IntRaw.setUpper, hc, h, hl]
  · intro h
    cases hs : s.lower with
    | none => simp [IntRaw.setUpper, hc, hs]
    | some l => simp [IntRaw.setUpper, hc, hs, not_lt.2 (h l hs)]

/-- C13: None, infinities and NaN, fractions, and integers that no float represents are refused with ValueError; integers too large for a float with another
exception (OverflowError). -/
theorem C13_raises (s : IntRaw) (v : NumArg) (e : PyErr)
    (hv : (e = .valueError ∧ (v = .none ∨ v = .nonFinite ∨ (∃ q : Rat, v = .float q ∧ q.den ≠ 1) ∨ ∃ n m, v = .int n ∧ floatOfInt n = some m ∧ n ≠ m)) ∨
      e = .other ∧ ∃ n, v = .int n ∧ floatOfInt n = none) :
    s.setLower v = (s, .error e) ∧ s.setUpper v = (s, .error e) := by
  have hc : v.check = .error e := by
    rcases hv with ⟨rfl, rfl | rfl | ⟨q, rfl, h⟩ | ⟨n, m, rfl, h, hn⟩⟩ | ⟨rfl, n, rfl, h⟩
    · rfl
    · rfl
    · simp [NumArg.check, h]
    · simp [NumArg.check, h, hn]
    · simp [NumArg.check, h]
  simp [IntRaw.setLower, IntRaw.setUpper, hc]

/-! ### `float(int)` -/

/-- a number binary64 can hold, exponents being unlimited: a mantissa of at most 53 bits, shifted -/
def Grid (g : Nat) : Prop := ∃ m k : Nat, m < 2 ^ 53 ∧ g = m * 2 ^ k

theorem round_cases (n : Nat) (h : ¬ n < 2 ^ 53) : ∃ s q r, 1 ≤ s ∧ 2 ^ 52 ≤ q ∧ q < 2 ^ 53 ∧ r < 2 ^ s ∧ n = q * 2 ^ s + r ∧
    roundNat n = (if 2 ^ (s - 1) < r ∨ (r = 2 ^ (s - 1) ∧ q % 2 = 1) then q + 1 else q) * 2 ^ s := by
  have h0 : n ≠ 0 := by omega
  have h1 : 2 ^ Nat.log2 n ≤ n := Nat.log2_self_le h0
  have h2 : n < 2 ^ (Nat.log2 n + 1) := Nat.lt_log2_self
  have h3 : 53 ≤ Nat.log2 n := (Nat.le_log2 h0).2 (by omega)
  refine ⟨Nat.log2 n - 52, n / 2 ^ (Nat.log2 n - 52), n % 2 ^ (Nat.log2 n - 52), by omega, ?_, ?_, Nat.mod_lt _ (Nat.two_pow_pos _), ?_, ?_⟩
  · rw [Nat.le_div_iff_mul_le (Nat.two_pow_pos _), ← Nat.pow_add]
    rwa [show 52 + (Nat.log2 n - 52) = Nat.log2 n by omega]
  · rw [Nat.div_lt_iff_lt_mul (Nat.two_pow_pos _), ← Nat.pow_add]
    rwa [show 53 + (Nat.log2 n - 52) = Nat.log2 n + 1 by omega]
  · rw [Nat.mul_comm]; exact (Nat.div_add_mod _ _).symm
  · unfold roundNat; rw [if_neg h]

/-- C13: `float(n)` is a float, no float is nearer to n, and of two floats equally near it is the one whose last bit is 0. -/
theorem C13_nearest (n : Nat) : Grid (roundNat n) ∧ ∀ g, Grid g → ((n : Int) - roundNat n).natAbs ≤ ((n : Int) - g).natAbs := by
  by_cases h : n < 2 ^ 53
  · have : roundNat n = n := by unfold roundNat; rw [if_pos h]
    rw [this]
    exact ⟨⟨n, 0, h, by simp⟩, fun g _ => by omega⟩
  · obtain ⟨s, q, r, hs, hq, hq', hr, hn, he⟩ := round_cases n h
    have hp : 2 ^ s = 2 * 2 ^ (s - 1) := by
      rw [← Nat.pow_succ']; congr 1; omega
    constructor
    · rw [he]
      split
      · by_cases hq2 : q + 1 = 2 ^ 53
        · exact ⟨1, 53 + s, by decide, by rw [hq2, Nat.pow_add]; omega⟩
        · exact ⟨q + 1, s, by omega, rfl⟩
      · exact ⟨q, s, hq', rfl⟩
    · rintro g ⟨m, k, hm, rfl⟩
      have hmin : ((n : Int) - roundNat n).natAbs ≤ r ∧ ((n : Int) - roundNat n).natAbs ≤ 2 ^ s - r := by
        rw [he, hn]
        generalize 2 ^ (s - 1) = t at *
        rw [hp] at hr ⊢
        split
        · have : (q + 1) * (2 * t) = q * (2 * t) + 2 * t := by rw [Nat.add_mul, Nat.one_mul]
          omega
        · omega
      -- a float below, or a multiple of the spacing
      have key : m * 2 ^ k ≤ q * 2 ^ s ∨ (q + 1) * 2 ^ s ≤ m * 2 ^ k := by
        by_cases hk : k < s
        · left
          have h1 : m * 2 ^ k ≤ 2 ^ 53 * 2 ^ (s - 1) := Nat.mul_le_mul (by omega) (Nat.pow_le_pow_right (by decide) (by omega))
          have h2 : 2 ^ 52 * 2 ^ s ≤ q * 2 ^ s := Nat.mul_le_mul_right _ hq
          rw [hp] at h2 ⊢
          omega
        · have : m * 2 ^ k = m * 2 ^ (k - s) * 2 ^ s := by rw [Nat.mul_assoc, ← Nat.pow_add]; congr 2; omega
          rw [this]
          rcases Nat.lt_or_ge q (m * 2 ^ (k - s)) with h | h
          · exact .inr (Nat.mul_le_mul_right _ h)
          · exact .inl (Nat.mul_le_mul_right _ h)
      generalize m * 2 ^ k = g at *
      have : (q + 1) * 2 ^ s = q * 2 ^ s + 2 ^ s := by rw [Nat.add_mul, Nat.one_mul]
      omega

/-- C13: the integers the setters accept are those of at most 53 significant bits (followed by zeros) that are less than 2^1024. -/
theorem C13_representable (n : Int) : Representable n ↔ Grid n.natAbs ∧ n.natAbs < 2 ^ 1024 := by
  unfold Representable
  rw [← roundNat_eq_iff]
  refine and_congr_left fun _ => ⟨fun h => ?_, fun h => ?_⟩
  · have := (C13_nearest n.natAbs).1
    rwa [h] at this
  · have := (C13_nearest n.natAbs).2 _ h
    omega

/-- C13: ties are broken towards the even mantissa. -/
theorem C13_ties (q s : Nat) (hq : 2 ^ 52 ≤ q) (hq' : q < 2 ^ 53) :
    roundNat (q * 2 ^ (s + 1) + 2 ^ s) = (if q % 2 = 0 then q else q + 1) * 2 ^ (s + 1) := by
  have hn : ¬ q * 2 ^ (s + 1) + 2 ^ s < 2 ^ 53 := by
    have : 2 ^ 52 * 2 ≤ q * 2 ^ (s + 1) := Nat.mul_le_mul hq (by rw [Nat.pow_succ]; have := Nat.two_pow_pos s; omega)
    have hp := Nat.two_pow_pos s
    generalize q * 2 ^ (s + 1) = a at *
    omega
  obtain ⟨s', q', r, hs, h1, h2, hr, hn', he⟩ := round_cases _ hn
  have hl : (q * 2 ^ (s + 1) + 2 ^ s).log2 = s' + 52 := by
    refine (Nat.log2_eq_iff (by omega)).2 ⟨?_, ?_⟩
    · rw [hn', Nat.add_comm s', Nat.pow_add]; exact Nat.le_add_right_of_le (Nat.mul_le_mul_right _ h1)
    · have : (q' + 1) * 2 ^ s' ≤ 2 ^ 53 * 2 ^ s' := Nat.mul_le_mul_right _ h2
      rw [hn', show s' + 52 + 1 = 53 + s' by omega, Nat.pow_add]; rw [Nat.add_mul, Nat.one_mul] at this; omega
  have hl' : (q * 2 ^ (s + 1) + 2 ^ s).log2 = s + 1 + 52 := by
    have hs2 : 2 ^ (s + 1) = 2 ^ s * 2 := Nat.pow_succ ..
    refine (Nat.log2_eq_iff (by omega)).2 ⟨?_, ?_⟩
    · rw [Nat.add_comm (s + 1), Nat.pow_add]; exact Nat.le_add_right_of_le (Nat.mul_le_mul_right _ hq)
    · have : (q + 1) * 2 ^ (s + 1) ≤ 2 ^ 53 * 2 ^ (s + 1) := Nat.mul_le_mul_right _ hq'
      have hp := Nat.two_pow_pos s
      rw [show s + 1 + 52 + 1 = 53 + (s + 1) by omega, Nat.pow_add 2 53]; rw [Nat.add_mul, Nat.one_mul] at this
      rw [hs2] at this ⊢
      generalize q * (2 ^ s * 2) = a at *
      generalize 2 ^ 53 * (2 ^ s * 2) = c at *
      omega
  have : s' = s + 1 := by omega
  subst this
  have hp := Nat.two_pow_pos s
  have hs2 : 2 ^ (s + 1) = 2 ^ s * 2 := Nat.pow_succ ..
  have hqq : q' = q := by
    have e1 : (q * 2 ^ (s + 1) + 2 ^ s) / 2 ^ (s + 1) = q := by
      rw [Nat.mul_comm, Nat.mul_add_div (Nat.two_pow_pos _), Nat.div_eq_of_lt (by omega)]; omega
    have e2 : (q' * 2 ^ (s + 1) + r) / 2 ^ (s + 1) = q' := by
      rw [Nat.mul_comm, Nat.mul_add_div (Nat.two_pow_pos _), Nat.div_eq_of_lt hr]; omega
    rw [← e1, hn', e2]
  subst hqq
  have hrr : r = 2 ^ s := by omega
  rw [he, hrr]
  simp only [Nat.add_sub_cancel, Nat.lt_irrefl, false_or, true_and]
  by_cases h : q' % 2 = 0
  · rw [if_pos h, if_neg (by omega)]
  · rw [if_neg h, if_pos (by omega)]

/-- C13: the integers too large for a float are exactly those from half a spacing below 2^1024 on; these raise OverflowError (`C13_raises`). -/
theorem C13_overflow (n : Int) : floatOfInt n = none ↔ 2 ^ 1024 - 2 ^ 970 ≤ n.natAbs := by
  have e : floatOfInt n = none ↔ ¬ roundNat n.natAbs < 2 ^ 1024 := by
    unfold floatOfInt
    simp only
    split <;> simp_all
  rw [e]
  generalize n.natAbs = n
  by_cases h : n < 2 ^ 53
  · have h1 : roundNat n = n := by unfold roundNat; rw [if_pos h]
    have h2 : (2:Nat) ^ 53 < 2 ^ 1024 - 2 ^ 970 := by decide +kernel
    have h3 : (2:Nat) ^ 53 < 2 ^ 1024 := by decide +kernel
    rw [h1]; omega
  · obtain ⟨s, q, r, hs, hq, hq', hr, hn, he⟩ := round_cases n h
    have hp : 2 ^ s = 2 * 2 ^ (s - 1) := by
      rw [← Nat.pow_succ']; congr 1; omega
    have hup : (q + 1) * 2 ^ s ≤ 2 ^ 53 * 2 ^ s := Nat.mul_le_mul_right _ hq'
    have hdn : 2 ^ 52 * 2 ^ s ≤ q * 2 ^ s := Nat.mul_le_mul_right _ hq
    have hexp : (q + 1) * 2 ^ s = q * 2 ^ s + 2 ^ s := by rw [Nat.add_mul, Nat.one_mul]
    rcases Nat.lt_trichotomy s 971 with hs' | hs' | hs'
    · have h1 : 2 ^ 53 * 2 ^ s ≤ 2 ^ 53 * 2 ^ 970 := Nat.mul_le_mul_left _ (Nat.pow_le_pow_right (by decide) (by omega))
      have h2 : (2:Nat) ^ 53 * 2 ^ 970 < 2 ^ 1024 - 2 ^ 970 := by decide +kernel
      have h3 : (2:Nat) ^ 53 * 2 ^ 970 < 2 ^ 1024 := by decide +kernel
      have h4 : roundNat n ≤ (q + 1) * 2 ^ s := by rw [he]; exact Nat.mul_le_mul_right _ (by split <;> omega)
      omega
    · subst hs'
      have h1 : (2:Nat) ^ 1024 = 2 ^ 53 * 2 ^ 971 := by decide +kernel
      have h2 : (2:Nat) ^ 971 = 2 * 2 ^ 970 := by decide +kernel
      have h3 : 0 < (2:Nat) ^ 970 := Nat.two_pow_pos _
      have h6 : (971 - 1) = 970 := rfl
      rw [h6] at he
      rw [he, h1]
      rw [h2] at hn hr ⊢
      by_cases hq2 : q + 1 = 2 ^ 53
      · have hodd : q % 2 = 1 := by omega
        have hqv : q = 2 ^ 53 - 1 := by omega
        rw [hodd]
        clear he hup hdn hexp hp h e
        subst hqv
        generalize (2:Nat) ^ 970 = t at *
        split <;> omega
      · have : (q + 2) * (2 * 2 ^ 970) ≤ 2 ^ 53 * (2 * 2 ^ 970) := Nat.mul_le_mul_right _ (by omega)
        generalize (2:Nat) ^ 970 = t at *
        have e1 : (q + 2) * (2 * t) = q * (2 * t) + 4 * t := by rw [Nat.add_mul]; omega
        have e2 : (q + 1) * (2 * t) = q * (2 * t) + 2 * t := by rw [Nat.add_mul]; omega
        split <;> omega
    · have h1 : 2 ^ 52 * 2 ^ 972 ≤ 2 ^ 52 * 2 ^ s := Nat.mul_le_mul_left _ (Nat.pow_le_pow_right (by decide) hs')
      have h2 : (2:Nat) ^ 52 * 2 ^ 972 = 2 ^ 1024 := by decide +kernel
      have h4 : q * 2 ^ s ≤ roundNat n := by rw [he]; exact Nat.mul_le_mul_right _ (by split <;> omega)
      omega

/-- C12: a distribution that has not been given yet has no bounds, and a formula neither: TypeError. -/
theorem C12_missing_raises : toBounds (.discreteCategorical none : Value U α S P) = .error .typeError ∧
    toBounds (.empiricalFormula none : Value U α S P) = .error .typeError ∧
    toBounds (.nominalCategorical none : Value U α S P) = .error .valueError := ⟨rfl, rfl, rfl⟩

/-- C08: an argument of another class is refused with TypeError, wherever it stands, by `union` and by `update` of all classes except that the molecular
`update` accepts everything. Real bounds in units of another dimension are refused with a units error. -/
theorem C08_raises (us : UnitSys U D α) (self : Bounds U α S) (others : List (Arg U α S P)) :
    (∀ a ∈ others, admits self a = false → union us self others = .error .typeError ∧
      (self ≠ .mol → update us self others = (self, .error .typeError))) ∧
    ∀ a b : RealB U α, self = .real a → others = [.bounds (.real b)] → us.root b.units ≠ us.root a.units →
      union us self others = .error .incompatibleUnits ∧ update us self others = (self, .error .incompatibleUnits) := by
  constructor
  · intro a ha h
    have hu : union us self others = .error .typeError := if_pos (List.any_eq_true.2 ⟨a, ha, by simp [h]⟩)
    refine ⟨hu, fun hm => ?_⟩
    cases self <;> simp_all [update]
  · rintro a b rfl rfl h
    have hn : b.units ≠ a.units := fun e => h (by rw [e])
    have hu : union us (.real a) ([.bounds (.real b)] : List (Arg U α S P)) = .error .incompatibleUnits := by
      simp [union, admits, unionRealLoop, resolve, RealB.convert, convertUnits, hn, h]
    exact ⟨hu, by simp [update, hu]⟩

example : admits (.int ⟨0, 1⟩ : Bounds Unit Int Nat) (.other : Arg Unit Int Nat Unit) = false := rfl

end Verif.Bounds

namespace Verif.Strings
open Verif.Py

variable {Str : Type} [DecidableEq Str]

/-- C17: an enumeration in which the value of a member is already the value or a synonym of an earlier one cannot be defined: ValueError. -/
theorem C17_duplicate_raises (o : StrOps Str) (cls : List (Member Str)) (v : Str) (syn : List Str) (m : Member Str) (hm : m ∈ cls) (h : o.norm v ∈ m.matchSet)
    (rest : List (Str × List Str)) : mkEnum o cls ((v, syn) :: rest) = .error .valueError := by
  have hf : findMember o cls v ≠ none := by
    intro hn
    have := List.find?_eq_none.1 hn m hm
    simp [h] at this
  obtain ⟨x, hx⟩ := Option.ne_none_iff_exists'.1 hf
  simp [mkEnum, newMember, fromStr, hx]

end Verif.Strings

namespace Verif.Template
open Verif.Py Verif.Bounds Verif.Level Verif.Attr

variable {U D α S P : Type} [LinearOrder α] [DecidableEq U] [DecidableEq D] [DecidableEq S]

/-- C25: what is refused is refused with these exceptions. Content of a wrong type, and pairs that are not a reference and bounds or None, with TypeError;
sequences of another length than two with ValueError. -/
theorem C25_raises (us : UnitSys U D α) (k : AKind) :
    (∀ l : List (Item U α S), (∀ i ∈ l, i.isBounds = false) → (∃ i ∈ l, i.ok k = false) → setList us k (.listOrTuple l) = .error .typeError) ∧
    (∀ l : List (Elt U α S), l.length ≠ 2 → setList us k (.listOrTuple [.seq l]) = .error .valueError) ∧
    (∀ (r : Ref U α S) (x : Elt U α S), x = .other ∨ (∃ r', x = .ref r') → setList us k (.listOrTuple [.seq [.ref r, x]]) = .error .typeError) ∧
    ∀ x y : Elt U α S, (∀ r, x ≠ .ref r) → setList us k (.listOrTuple [.seq [x, y]]) = .error .typeError := by
  refine ⟨fun l hb ⟨i, hi, h⟩ => ?_, fun l h => ?_, fun r x h => ?_, fun x y h => ?_⟩
  · have hany : l.any Item.isBounds = false := by
      rw [List.any_eq_false]; intro i hi; simp [hb i hi]
    have hva : VList.validateAll (cfg us k) l = false := by
      unfold VList.validateAll
      rw [List.all_eq_false]
      exact ⟨i, hi, by simpa [cfg] using h⟩
    simp [setList, hany, VList.validateList, VList.init, VList.Arg.first, hva]
  · have : homogenize us (.seq l) = .error .valueError := by
      rcases l with _ | ⟨a, _ | ⟨b, _ | ⟨c, l⟩⟩⟩
      · rfl
      · rfl
      · simp at h
      · rfl
    simp [setList, Item.isBounds, VList.validateList, VList.init, VList.Arg.first, VList.Arg.again, VList.validateAll, VList.fireAll, VList.fire, cfg, Item.ok, this, Except.map]
  · have : homogenize us (.seq [.ref r, x]) = .error .typeError := by
      rcases h with rfl | ⟨r', rfl⟩ <;> cases r <;> rfl
    simp [setList, Item.isBounds, VList.validateList, VList.init, VList.Arg.first, VList.Arg.again, VList.validateAll, VList.fireAll, VList.fire, cfg, Item.ok, this, Except.map]
  · have : homogenize us (.seq [x, y]) = .error .typeError := by
      cases x with
      | ref r => exact absurd rfl (h r)
      | _ => rfl
    simp [setList, Item.isBounds, VList.validateList, VList.init, VList.Arg.first, VList.Arg.again, VList.validateAll, VList.fireAll, VList.fire, cfg, Item.ok, this, Except.map]

/-- C25: what a list may contain: a template of the kind, a link, a list or tuple; nothing else. -/
theorem C25_content (k : AKind) (i : Item U α S) :
    i.ok k = true ↔ (∃ t : ATmpl U α S, i = .atom (.ref (.tmpl t)) ∧ t.kind = k) ∨ (∃ s x, i = .atom (.ref (.link s x))) ∨ ∃ l, i = .seq l := by
  cases i with
  | seq l => simp [Item.ok]
  | atom e => cases e with
    | ref r => cases r <;> simp [Item.ok]
    | _ => simp [Item.ok]

/-- C25: a container that is no list or tuple is taken as a list of its elements if none is bounds, and refused with TypeError otherwise. -/
theorem C25_container (us : UnitSys U D α) (k : AKind) (l : List (Item U α S)) :
    ((∀ i ∈ l, i.isBounds = false) → setList us k (.container l) = setList us k (.listOrTuple l)) ∧
    ((∃ i ∈ l, i.isBounds = true) → setList us k (.container l) = .error .typeError ∧ setList us k (.oneShot l) = .error .typeError) := by
  constructor
  · intro h
    have hany : l.any Item.isBounds = false := by
      rw [List.any_eq_false]; intro i hi; simp [h i hi]
    simp [setList, hany]
  · rintro ⟨i, hi, h⟩
    have hany : l.any Item.isBounds = true := List.any_eq_true.2 ⟨i, hi, h⟩
    simp [setList, hany, VList.validateList, VList.init, VList.Arg.first, VList.validateAll, cfg, Item.ok]

/-- C23 at WARNING, for an attribute that has a template and a value that has bounds: it is accepted in any case, and a warning is logged exactly when it does
not satisfy the object's template. -/
theorem C23_warning_decides (us : UnitSys U D α) (hl : us.Lawful) (eqv : Ref U α S → Ref U α S → Bool) (k : AKind)
    (entries : List (Entry U α S)) (l : List (Option (Attr U α S P))) (a : Attr U α S P) (ht : a.template ≠ none) (v : Value U α S P) (hv : a.value = some v) (hc : Complete v) :
    (Satisfies us eqv k entries a →
      step us eqv k .warning { template := .obj entries, attrs := l } (.listOp (.append (some a)))
        = ({ template := .obj entries, attrs := l ++ [some a] }, 0, .ok ())) ∧
    (¬ Satisfies us eqv k entries a →
      step us eqv k .warning { template := .obj entries, attrs := l } (.listOp (.append (some a)))
        = ({ template := .obj entries, attrs := l ++ [some a] }, 1, .ok ())) := by
  have hf := C23_fatal_decides us hl eqv k entries l a ht
  have ok : ∃ r, validate us eqv k entries a = .ok r := by
    obtain ⟨t, ht⟩ := Option.ne_none_iff_exists'.mp ht
    have hcont : ∀ b, ∃ r, contains us b (valueArg a.value) = .ok r := by
      intro b
      rw [hv]
      obtain ⟨r, hr, _⟩ := (Attr.contains_value us hl b v).1 hc
      exact ⟨r, hr⟩
    unfold validate
    simp only [ht]
    cases entries.find? (fun x => eqv t x.1) with
    | none => exact ⟨true, rfl⟩
    | some e =>
      obtain ⟨r, c⟩ := e
      cases c with
      | some b => exact hcont b
      | none => cases r with
        | link => exact ⟨true, rfl⟩
        | tmpl u =>
          simp only
          split
          · exact hcont _
          · exact ⟨true, rfl⟩
  obtain ⟨r, hr⟩ := ok
  constructor
  · intro h
    have h1 := hf.1 h
    cases r with
    | true => simp [step, VList.step, VList.append, attr_fire, attr_ok, templateCheck, hr]
    | false => simp [step, VList.step, VList.append, attr_fire, attr_ok, templateCheck, hr] at h1
  · intro h
    obtain ⟨e, h1⟩ := hf.2 h
    cases r with
    | true => simp [step, VList.step, VList.append, attr_fire, attr_ok, templateCheck, hr] at h1
    | false => simp [step, VList.step, VList.append, attr_fire, attr_ok, templateCheck, hr]

/-- the hypotheses are met, and the warning comes: a temperature outside the narrower bounds of the object's template -/
example : step oneUnit sameRef .condition .warning { template := .obj narrow, attrs := [] } (.listOp (.append (some hot)))
    = ({ template := .obj narrow, attrs := [some hot] }, 1, .ok ()) :=
  (C23_warning_decides oneUnit oneUnit_lawful sameRef .condition narrow [] hot (by simp [hot]) _ rfl (by simp [Complete, HasContent, IntsRepresentable])).2 hot_not_narrow

end Verif.Template

namespace Verif.MakeValue
open Verif.Py Verif.Bounds Verif.Level Verif.Attr Verif.Strings

variable {U D α P : Type} [LinearOrder α] [DecidableEq U] [DecidableEq D]

/-- C51: the exceptions. For real bounds anything but a number fails an assertion, unless the units cannot be parsed. For integer bounds a float that is no whole
number, or anything that is no number, raises TypeError; so does anything but a string or None for categorical, composition and molecular bounds. A string that is
no formula raises ValueError for composition bounds. -/
theorem C51_raises (fl : Floats α) (parse : U → Except PyErr U) (table : List (List Char)) (p : Prim α) :
    (∀ (b : RealB U α) e, parse b.units = .error e → makeValue fl parse table p (some (.real b)) = .error e) ∧
    (∀ (b : RealB U α) u, parse b.units = .ok u → (∀ n, p ≠ .int n) → (∀ x, p ≠ .float x) → makeValue fl parse table p (some (.real b)) = .error .assertionError) ∧
    (∀ b : IntB, (∀ n, p ≠ .int n) → (∀ x, p = .float x → ∃ y, x = some y ∧ fl.toInt y = none) →
      makeValue fl parse table p (some (.int b : Bounds U α (List Char))) = .error .typeError) ∧
    (p ≠ .none → (∀ s, p ≠ .str s) → ∀ b : Bounds U α (List Char), kind b = .cat ∨ kind b = .comp ∨ kind b = .mol → makeValue fl parse table p (some b) = .error .typeError) ∧
    ∀ s l, p = .str s → (∃ tok, IsToken s tok ∧ tok ∉ table) → makeValue fl parse table p (some (.comp l : Bounds U α (List Char))) = .error .valueError := by
  refine ⟨fun b e h => ?_, fun b u h hi hf => ?_, fun b hi hf => ?_, fun hn hs b hb => ?_, fun s l hp ⟨tok, ht, hn⟩ => ?_⟩
  · simp only [makeValue, nominalReal, h]
  · cases p with
    | int n => exact absurd rfl (hi n)
    | float x => exact absurd rfl (hf x)
    | _ => simp only [makeValue, nominalReal, h]
  · cases p with
    | int n => exact absurd rfl (hi n)
    | float x =>
      obtain ⟨y, rfl, hy⟩ := hf x rfl
      simp only [makeValue, nominalInteger, hy]
    | _ => rfl
  · cases b with
    | real b => simp [kind] at hb
    | int b => simp [kind] at hb
    | cat l => cases p <;> first | rfl | exact absurd rfl hn | exact absurd rfl (hs _)
    | comp l => cases p <;> first | rfl | exact absurd rfl hn | exact absurd rfl (hs _)
    | mol => cases p <;> first | exact absurd rfl hn | exact absurd rfl (hs _) | (simp only [makeValue]; split <;> rfl)
  · subst hp
    simp only [makeValue, Prim.arg, (C19_accept_iff table none s).2.1 (fun h => hn (h tok ht)), fresh]

end Verif.MakeValue

namespace Verif.SetAlias
open Verif.Py Verif.Bounds

variable {S : Type} [DecidableEq S]

/-- C63: the exceptions. A setter or constructor given something that is no collection, or a collection with something that is no string, raises ValueError (the
setter, in the second case, after storing it); `union` and `update` given something that is neither bounds nor a value raise TypeError; given a value whose
bounds raise, they pass on the first such exception. -/
theorem C63_raises (s : Objs S) (b : Nat) :
    (construct s .other = (s, .error .valueError) ∧ assign s b .other = (s, .error .valueError)) ∧
    (∀ l : List (Elem S), (∃ e ∈ l, e.isStr = false) → (construct s (.list l)).2 = .error .valueError ∧ (assign s b (.list l)).2 = .error .valueError) ∧
    (∀ others : List (Other S), .other ∈ others → union s b others = (s, .error .typeError) ∧ update s b others = (s, .error .typeError)) ∧
    ∀ (pre post : List (Other S)) (e : PyErr), (∀ o ∈ pre ++ post, o ≠ .other) → (∀ o ∈ pre, ∀ e, o ≠ .value (.error e)) →
      union s b (pre ++ .value (.error e) :: post) = (s, .error e) ∧ update s b (pre ++ .value (.error e) :: post) = (s, .error e) := by
  refine ⟨⟨rfl, rfl⟩, fun l ⟨e, he, h⟩ => ?_, fun others h => ?_, fun pre post e h1 h2 => ?_⟩
  · have : allStr { sets := s.sets ++ [l], bounds := s.bounds } s.sets.length = false := by
      simp only [allStr, List.getElem?_concat_length, Option.getD_some, List.all_eq_false]
      exact ⟨e, he, by simp [h]⟩
    simp [construct, assign, choose, this]
  · have hu : union s b others = (s, .error .typeError) := if_pos (List.any_eq_true.2 ⟨_, h, rfl⟩)
    exact ⟨hu, by simp [update, hu]⟩
  · have hg : ∀ (pre : List (Other S)) (acc : List (Elem S)), (∀ o ∈ pre, o ≠ .other) → (∀ o ∈ pre, ∀ e, o ≠ .value (.error e)) →
        gather s acc (pre ++ .value (.error e) :: post) = .error e := by
      intro pre
      induction pre with
      | nil => intros; rfl
      | cons o os ih =>
        intro acc h1 h2
        have i := fun acc => ih acc (fun o ho => h1 o (List.mem_cons_of_mem _ ho)) (fun o ho => h2 o (List.mem_cons_of_mem _ ho))
        cases o with
        | bounds c => exact i _
        | value r => cases r with
          | ok l => exact i _
          | error e => exact absurd rfl (h2 _ (List.mem_cons_self ..) e)
        | other => exact absurd rfl (h1 _ (List.mem_cons_self ..))
    have hb : (pre ++ .value (.error e) :: post).any Other.bad = false := by
      rw [List.any_eq_false]
      intro o ho
      rcases List.mem_append.1 ho with h | h
      · cases o with
        | other => exact absurd rfl (h1 _ (List.mem_append_left _ h))
        | _ => simp [Other.bad]
      · rcases List.mem_cons.1 h with rfl | h
        · simp [Other.bad]
        · cases o with
          | other => exact absurd rfl (h1 _ (List.mem_append_right _ h))
          | _ => simp [Other.bad]
    have hu : union s b (pre ++ .value (.error e) :: post) = (s, .error e) := by
      simp [union, hb, hg pre (categories s b) (fun o ho => h1 o (List.mem_append_left _ ho)) h2]
    exact ⟨hu, by simp [update, hu]⟩

/-- C63: the setter and the constructor store what they are given, and `step` reports success exactly when no exception is raised. -/
theorem C63_stores (s : Objs S) (b : Nat) (hb : b < s.bounds.length) (l : List (Elem S)) (hl : ∀ e ∈ l, e.isStr = true) :
    ((step s (.construct (.list l))).2 = true ∧ (construct s (.list l)).2 = .ok s.bounds.length ∧ categories (construct s (.list l)).1 s.bounds.length = l) ∧
    ((step s (.assign b (.list l))).2 = true ∧ (assign s b (.list l)).2 = .ok () ∧ categories (assign s b (.list l)).1 b = l) ∧
    ((step s (.construct .none)).2 = true ∧ categories (construct s .none).1 s.bounds.length = []) ∧
    ((step s (.assign b .none)).2 = true ∧ categories (assign s b .none).1 b = []) := by
  have h : allStr { sets := s.sets ++ [l], bounds := s.bounds } s.sets.length = true := by
    simp only [allStr, List.getElem?_concat_length, Option.getD_some, List.all_eq_true]
    exact hl
  have h0 : allStr { sets := s.sets ++ [[]], bounds := s.bounds } s.sets.length = true := by simp [allStr]
  simp [step, construct, assign, choose, categories, h, h0, hb]

/-- C63: `step` reports failure exactly when an exception is raised. -/
theorem C63_reported (s : Objs S) (b : Nat) (a : CatArg S) (others : List (Other S)) :
    ((step s (.construct a)).2 = false ↔ ∃ e, (construct s a).2 = .error e) ∧ ((step s (.assign b a)).2 = false ↔ ∃ e, (assign s b a).2 = .error e) ∧
    ((step s (.union b others)).2 = false ↔ ∃ e, (union s b others).2 = .error e) ∧ ((step s (.update b others)).2 = false ↔ ∃ e, (update s b others).2 = .error e) := by
  refine ⟨?_, ?_, ?_, ?_⟩ <;> simp only [step]
  · generalize construct s a = r; obtain ⟨s', r⟩ := r; cases r <;> simp
  · generalize assign s b a = r; obtain ⟨s', r⟩ := r; cases r <;> simp
  · generalize union s b others = r; obtain ⟨s', r⟩ := r; cases r <;> simp
  · generalize update s b others = r; obtain ⟨s', r⟩ := r; cases r <;> simp

end Verif.SetAlias
