import Verif.Model.Dist
/-!
# C20: distribution values keep their own constraints
-/

namespace Verif.Dist
open Verif.Py

/-- both bounds set and in order -/
def Ok (s : UInt) : Prop := ∃ l u, s.lower = some l ∧ s.upper = some u ∧ l ≤ u

theorem step_ok (s : UInt) (op : UOp) (h : Ok s) :
    Ok (s.step op).1 ∧ (∀ e, (s.step op).2 = .error e → (s.step op).1 = s) := by
  obtain ⟨l, u, hl, hu, hlu⟩ := h
  cases op with
  | lower v =>
    simp only [UInt.step, UInt.setLower]
    cases c : v.toInt with
    | error e => exact ⟨⟨l, u, hl, hu, hlu⟩, fun _ _ => rfl⟩
    | ok n =>
      simp only [hu]
      by_cases h : n > u
      · rw [if_pos h]; exact ⟨⟨l, u, hl, hu, hlu⟩, fun _ _ => rfl⟩
      · rw [if_neg h]; exact ⟨⟨n, u, rfl, rfl, by omega⟩, fun _ h => by cases h⟩
  | upper v =>
    simp only [UInt.step, UInt.setUpper]
    cases c : v.toInt with
    | error e => exact ⟨⟨l, u, hl, hu, hlu⟩, fun _ _ => rfl⟩
    | ok n =>
      simp only [hl]
      by_cases h : l > n
      · rw [if_pos h]; exact ⟨⟨l, u, hl, hu, hlu⟩, fun _ _ => rfl⟩
      · rw [if_neg h]; exact ⟨⟨l, n, rfl, rfl, by omega⟩, fun _ h => by cases h⟩

/-- C20. A constructed UniformInteger has `lower ≤ upper` after any history of (also failing) assignments. -/
theorem C20_uniform_integer (lo hi : NumArg) (s : UInt) (h : UInt.init lo hi = .ok s) (ops : List UOp) :
    ∃ l u, (s.run ops).lower = some l ∧ (s.run ops).upper = some u ∧ l ≤ u := by
  have h0 : Ok s := by
    unfold UInt.init UInt.setLower at h
    cases c1 : lo.toInt with
    | error e => rw [c1] at h; cases h
    | ok l =>
      simp only [c1, UInt.setUpper] at h
      cases c2 : hi.toInt with
      | error e => rw [c2] at h; cases h
      | ok u =>
        simp only [c2] at h
        by_cases hlu : l > u
        · rw [if_pos hlu] at h; cases h
        · rw [if_neg hlu] at h
          injection h with h; subst h
          exact ⟨l, u, rfl, rfl, by omega⟩
  clear h
  show Ok (s.run ops)
  induction ops generalizing s with
  | nil => exact h0
  | cons op ops ih => exact ih _ (step_ok s op h0).1

/-- C20. A rejected assignment to a constructed UniformInteger changes nothing. -/
theorem C20_uniform_integer_atomic (s : UInt) (hs : ∃ l u, s.lower = some l ∧ s.upper = some u ∧ l ≤ u) (op : UOp) (e : PyErr)
    (h : (s.step op).2 = .error e) : (s.step op).1 = s := (step_ok s op hs).2 e h

/-- C20. An accepted assignment stores exactly the given whole number. -/
theorem C20_uniform_integer_stores (s : UInt) (v : NumArg) :
    (∀ s', s.setLower v = (s', .ok ()) → ∃ n, v.toInt = .ok n ∧ s' = { s with lower := some n }) ∧
    (∀ s', s.setUpper v = (s', .ok ()) → ∃ n, v.toInt = .ok n ∧ s' = { s with upper := some n }) := by
  constructor
  · intro s' h
    unfold UInt.setLower at h
    cases c : v.toInt with
    | error e => rw [c] at h; injection h with _ h; cases h
    | ok n =>
      simp only [c] at h
      refine ⟨n, rfl, ?_⟩
      split at h
      · split at h
        · injection h with _ h; cases h
        · injection h with h _; exact h.symm
      · injection h with h _; exact h.symm
  · intro s' h
    unfold UInt.setUpper at h
    cases c : v.toInt with
    | error e => rw [c] at h; injection h with _ h; cases h
    | ok n =>
      simp only [c] at h
      refine ⟨n, rfl, ?_⟩
      split at h
      · injection h with _ h; cases h
      · split at h
        · injection h with _ h; cases h
        · injection h with h _; exact h.symm

/-- C20. Which exception a bound of a UniformInteger raises: what is no whole number is refused as `toInt` says (TypeError; ValueError for nan), a lower bound above the upper
one and an upper one below the lower one with ValueError; an upper bound is refused with TypeError as long as there is no lower one. Nothing else is refused. -/
theorem C20_uniform_integer_raises (s : UInt) (v : NumArg) :
    (∀ e, (s.setLower v).2 = .error e ↔ v.toInt = .error e ∨ e = .valueError ∧ ∃ n u, v.toInt = .ok n ∧ s.upper = some u ∧ u < n) ∧
    (∀ e, (s.setUpper v).2 = .error e ↔ v.toInt = .error e ∨ (e = .typeError ∧ s.lower = none ∧ ∃ n, v.toInt = .ok n) ∨
      e = .valueError ∧ ∃ n l, v.toInt = .ok n ∧ s.lower = some l ∧ n < l) := by
  constructor
  · intro e
    unfold UInt.setLower
    cases c : v.toInt with
    | error e' => simp
    | ok n =>
      cases hu : s.upper with
      | none => simp
      | some u =>
        by_cases h : u < n <;> simp [h, eq_comm]
  · intro e
    unfold UInt.setUpper
    cases c : v.toInt with
    | error e' => simp
    | ok n =>
      cases hl : s.lower with
      | none => simp [eq_comm]
      | some l =>
        by_cases h : n < l <;> simp [h, eq_comm]

/-- C20. Which numbers are whole: integers, and floats with no fraction. -/
theorem C20_whole_numbers (v : NumArg) (n : Int) : v.toInt = .ok n ↔ v = .int n ∨ v = .float n := by
  cases v with
  | notNumber => simp [NumArg.toInt]
  | nan => simp [NumArg.toInt]
  | infinite => simp [NumArg.toInt]
  | int m => simp [NumArg.toInt]
  | float q =>
    simp only [NumArg.toInt, NumArg.float.injEq, reduceCtorEq, false_or]
    split
    · rename_i h
      constructor
      · intro e
        injection e with e
        subst e
        exact Rat.ext (by simp) (by simp [h])
      · rintro rfl
        simp
    · rename_i h
      constructor
      · intro e; cases e
      · rintro rfl
        simp at h

/-- probabilities absent, or summing to one within 1e-9 -/
def SumsToOne {Str : Type} : Option (List (Str × Rat)) → Prop
  | none => True
  | some p => 1 - 1 / 1000000000 ≤ (p.map Prod.snd).sum ∧ (p.map Prod.snd).sum ≤ 1 + 1 / 1000000000

theorem strKeys_snd {Str : Type} (d : List (Option Str × Rat)) (r : List (Str × Rat)) (h : strKeys d = .ok r) :
    r.map Prod.snd = d.map Prod.snd ∧ r.map (fun e => some e.1) = d.map Prod.fst := by
  induction d generalizing r with
  | nil => injection h with h; subst h; exact ⟨rfl, rfl⟩
  | cons a d ih =>
    obtain ⟨k, v⟩ := a
    cases k with
    | none => cases h
    | some k =>
      simp only [strKeys] at h
      split at h
      · rename_i r' hr'
        injection h with h; subst h
        obtain ⟨h1, h2⟩ := ih r' hr'
        simp [h1, h2]
      · cases h

theorem sumOff_false (l : List Rat) (h : sumOff l = false) :
    1 - 1 / 1000000000 ≤ l.sum ∧ l.sum ≤ 1 + 1 / 1000000000 := by
  unfold sumOff at h
  simp only [decide_eq_false_iff_not, gt_iff_lt, Rat.not_lt] at h
  split at h <;> constructor <;> grind

/-- C20. After any history of assignments (also failing ones) DiscreteCategorical probabilities are absent or sum to one
within the tolerance; a rejected assignment changes nothing; an accepted dictionary is stored as given. -/
theorem C20_discrete_categorical {Str : Type} (st : Option (List (Str × Rat))) (a : ProbArg Str) :
    (SumsToOne st → SumsToOne (setProbabilities st a).1) ∧
    (∀ e, (setProbabilities st a).2 = .error e → (setProbabilities st a).1 = st) ∧
    (∀ d, a = .dict d → (setProbabilities st a).2 = .ok () →
      ∃ r, (setProbabilities st a).1 = some r ∧ r.map (fun e => (some e.1, e.2)) = d) := by
  cases a with
  | none => exact ⟨fun _ => trivial, fun _ h => (by cases h), fun _ h => (by cases h)⟩
  | str s =>
    refine ⟨fun _ => ?_, fun _ h => (by cases h), fun _ h => (by cases h)⟩
    show SumsToOne (some [(s, 1)])
    simp only [SumsToOne, List.map, List.sum_cons, List.sum_nil]
    constructor <;> decide +kernel
  | other => exact ⟨fun h => h, fun _ _ => rfl, fun _ h => by cases h⟩
  | dict d =>
    cases hs : sumOff (d.map Prod.snd) with
    | true =>
      have e : setProbabilities st (.dict d) = (st, .error .valueError) := by simp [setProbabilities, hs]
      rw [e]; exact ⟨fun h => h, fun _ _ => rfl, fun _ _ h => by cases h⟩
    | false =>
      cases hk : strKeys d with
      | error er =>
        have e : setProbabilities st (.dict d) = (st, .error er) := by simp [setProbabilities, hs, hk]
        rw [e]; exact ⟨fun h => h, fun _ _ => rfl, fun _ _ h => by cases h⟩
      | ok r =>
        have e : setProbabilities st (.dict d) = (some r, .ok ()) := by simp [setProbabilities, hs, hk]
        rw [e]
        obtain ⟨h1, h2⟩ := strKeys_snd d r hk
        refine ⟨fun _ => ?_, fun _ h => (by cases h), ?_⟩
        · simp only [SumsToOne, h1]; exact sumOff_false _ hs
        · intro d' hd' _
          injection hd' with hd'; subst hd'
          refine ⟨r, rfl, ?_⟩
          clear hs h1 h2 e
          induction d generalizing r with
          | nil => injection hk with hk; subst hk; rfl
          | cons a d ih =>
            obtain ⟨k, v⟩ := a
            cases k with
            | none => cases hk
            | some k =>
              simp only [strKeys] at hk
              split at hk
              · rename_i r' hr'
                injection hk with hk; subst hk
                simp [ih r' hr']
              · cases hk

theorem C20_discrete_categorical_history {Str : Type} (args : List (ProbArg Str)) :
    SumsToOne (args.foldl (fun st a => (setProbabilities st a).1) none) := by
  suffices ∀ st, SumsToOne st → SumsToOne (args.foldl (fun st a => (setProbabilities st a).1) st) from this _ trivial
  induction args with
  | nil => exact fun _ h => h
  | cons a args ih => exact fun st h => ih _ ((C20_discrete_categorical st a).1 h)

/-- C20, UniformReal: the constructor enforces the order ... -/
theorem C20_uniform_real_init_partial (lo hi : Option Rat) (s : UReal) (h : UReal.init lo hi = .ok s) :
    ∃ l u, s = { lower := some l, upper := some u } ∧ l ≤ u := by
  unfold UReal.init at h
  split at h
  · split at h
    · injection h with h; exact ⟨_, _, h.symm, by assumption⟩
    · cases h
  · cases h

/-- C20, UniformReal: it raises exactly if a bound is missing (TypeError) or the lower one is above the upper one (AssertionError); assignments store what is given, whatever it is. -/
theorem C20_uniform_real_partial (lo hi : Option Rat) :
    (UReal.init lo hi = .error .typeError ↔ lo = none ∨ hi = none) ∧
    (UReal.init lo hi = .error .assertionError ↔ ∃ l u, lo = some l ∧ hi = some u ∧ u < l) ∧
    (∀ s : UReal, s.setLower lo = ⟨lo, s.upper⟩) ∧ ∀ s : UReal, s.setUpper hi = ⟨s.lower, hi⟩ := by
  refine ⟨?_, ?_, fun _ => rfl, fun _ => rfl⟩
  · cases lo <;> cases hi <;> simp [UReal.init]
    split <;> simp
  · cases lo <;> cases hi <;> simp [UReal.init]
    exact Rat.not_le

/-- ... but assignments do not: the claim is false for UniformReal. -/
theorem C20_uniform_real_counterexample :
    ∃ s : UReal, UReal.init (some 0) (some 1) = .ok s ∧
      ∃ l u, (s.setLower (some 2)).lower = some l ∧ (s.setLower (some 2)).upper = some u ∧ u < l :=
  ⟨_, rfl, 2, 1, rfl, rfl, by decide +kernel⟩

/-! non-vacuity -/
example : ∃ s, UInt.init (.int 1) (.float 3) = .ok s ∧ s.run [.lower (.int 5), .upper (.int 7), .lower (.int 5)]
    = { lower := some 5, upper := some 7 } := ⟨_, rfl, rfl⟩
example : (setProbabilities (none : Option (List (String × Rat))) (.dict [(some "a", 1/4), (some "b", 3/4)])).2 = .ok () := by decide +kernel
example : (setProbabilities (none : Option (List (String × Rat))) (.dict [(some "a", 1/4), (some "b", 1/4)]))
    = (none, .error .valueError) := by decide +kernel

end Verif.Dist
