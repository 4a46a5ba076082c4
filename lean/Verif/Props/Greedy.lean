import Verif.Model.Equal
/-!
# The matching of lists inside `_cached_equals`, on its own

A pure version of the loop over `this_list` (base_entity.py:181-203), for a fixed table `t` of answers (True, False, None = in progress):
matching a list against itself never fails, whatever the table, as long as it is symmetric and never says that an entity differs from
itself.
-/
set_option linter.unusedSimpArgs false
set_option linter.unusedSectionVars false
set_option linter.unusedVariables false

namespace Verif.Equal
open Verif.Py Verif.Value

variable (t : Nat → Nat → Option Bool) (mem : V → List V → Bool)

/-- the loop over the candidates -/
def pureCand (x : Nat) : List V → Nat → Option Bool → Option Bool × Nat
  | [], i, found => (found, i)
  | .ref y :: ys, i, found => match t x y with
    | some true => (some true, i)
    | none => pureCand x ys (i + 1) none
    | some false => pureCand x ys (i + 1) found
  | _ :: ys, i, found => pureCand x ys (i + 1) found

/-- the loop over `this_list` -/
def greedy : List V → List V → Bool
  | [], _ => true
  | .ref x :: xs, ys => match pureCand t x ys 0 (some false) with
    | (some true, i) => greedy xs (ys.eraseIdx i)
    | (none, _) => greedy xs ys
    | (some false, _) => false
  | x :: xs, ys => mem x ys && greedy xs ys

variable {t mem}

/-- the table says True -/
def Yes (t : Nat → Nat → Option Bool) (v w : V) : Prop := ∃ x y, v = .ref x ∧ w = .ref y ∧ t x y = some true

theorem pureCand_first {x y : Nat} (ht : t x y = some true) (post : List V) : ∀ (pre : List V) (i : Nat) (found : Option Bool),
    (∀ w ∈ pre, ¬ Yes t (.ref x) w) → pureCand t x (pre ++ .ref y :: post) i found = (some true, i + pre.length) := by
  intro pre
  induction pre with
  | nil => intro i found _; simp [pureCand, ht]
  | cons w pre ih =>
    intro i found h
    have h1 := h w List.mem_cons_self
    have ih := fun f => ih (i + 1) f (fun w hw => h w (List.mem_cons_of_mem _ hw))
    have e : i + 1 + pre.length = i + (w :: pre).length := by simp only [List.length_cons]; omega
    cases w <;> simp only [List.cons_append, pureCand]
    case ref z =>
      rcases hz : t x z with _ | _ | _
      · rw [ih none, e]
      · rw [ih found, e]
      · exact absurd ⟨x, z, rfl, rfl, hz⟩ h1
    all_goals rw [ih found, e]

theorem pureCand_none {x : Nat} : ∀ (ys : List V) (i : Nat) (found : Option Bool), (∀ w ∈ ys, ¬ Yes t (.ref x) w) →
    (found = none ∨ found = some false ∧ ∃ z, .ref z ∈ ys ∧ t x z = none) → ∃ j, pureCand t x ys i found = (none, j) := by
  intro ys
  induction ys with
  | nil =>
    intro i found _ h
    rcases h with rfl | ⟨_, z, hz, _⟩
    · exact ⟨i, rfl⟩
    · cases hz
  | cons w ys ih =>
    intro i found h hf
    have h1 := h w List.mem_cons_self
    have ih := fun f => ih (i + 1) f (fun w hw => h w (List.mem_cons_of_mem _ hw))
    cases w <;> simp only [pureCand]
    case ref z =>
      rcases hz : t x z with _ | _ | _
      · exact ih none (Or.inl rfl)
      · apply ih
        rcases hf with h | ⟨h, z', hz', hn⟩
        · exact Or.inl h
        · refine Or.inr ⟨h, z', ?_, hn⟩
          rcases List.mem_cons.mp hz' with h | h
          · cases h; rw [hz] at hn; cases hn
          · exact h
      · exact absurd ⟨x, z, rfl, rfl, hz⟩ h1
    all_goals
      apply ih
      rcases hf with h | ⟨h, z', hz', hn⟩
      · exact Or.inl h
      · refine Or.inr ⟨h, z', ?_, hn⟩
        rcases List.mem_cons.mp hz' with h | h
        · cases h
        · exact h

/-- the elements of `this_list` that are still to be matched, each with the tag of the element that took its copy, if one did -/
abbrev Rest := List (V × Option Nat)

/-- the copies that are still there -/
def present (r : Rest) : List V := (r.filter (fun e => decide (e.2 = none))).map Prod.fst

/-- `A`: the elements that were matched and whose own copy is still there, tagged in order. -/
structure Inv (t : Nat → Nat → Option Bool) (A : List (Nat × V)) (r : Rest) : Prop where
  sorted : A.Pairwise (fun a b => a.1 < b.1)
  owners : ∀ pre u i post, r = pre ++ (u, some i) :: post →
    (∀ e ∈ pre, e.2 ≠ some i) ∧ (∀ e ∈ post, e.2 ≠ some i) ∧ ∃ z, (i, z) ∈ A ∧ Yes t z u
  clean : ∀ i z, (i, z) ∈ A → ∀ pre u m post, r = pre ++ (u, m) :: post → (∀ e ∈ pre, e.2 ≠ some i) → m ≠ some i →
    (m = none ∨ ∃ j, m = some j ∧ i < j) → ¬ Yes t z u

theorem exists_fresh (A : List (Nat × V)) : ∃ f, ∀ a ∈ A, a.1 < f := by
  induction A with
  | nil => exact ⟨0, by simp⟩
  | cons a A ih =>
    obtain ⟨f, hf⟩ := ih
    refine ⟨max f (a.1 + 1), ?_⟩
    intro b hb
    rcases List.mem_cons.mp hb with rfl | hb
    · omega
    · have := hf b hb; omega

theorem yes_symm (sym : ∀ x y, t x y = t y x) {v w : V} (h : Yes t v w) : Yes t w v := by
  obtain ⟨x, y, h1, h2, h3⟩ := h
  exact ⟨y, x, h2, h1, by rw [sym]; exact h3⟩

theorem tag_unique {A : List (Nat × V)} (h : A.Pairwise (fun a b => a.1 < b.1)) {i : Nat} {z z' : V} (h1 : (i, z) ∈ A) (h2 : (i, z') ∈ A) : z = z' := by
  induction A with
  | nil => cases h1
  | cons a A ih =>
    rw [List.pairwise_cons] at h
    rcases List.mem_cons.mp h1 with e1 | e1 <;> rcases List.mem_cons.mp h2 with e2 | e2
    · rw [← e1] at e2; cases e2; rfl
    · have := h.1 _ e2; rw [← e1] at this; exact absurd this (Nat.lt_irrefl _)
    · have := h.1 _ e1; rw [← e2] at this; exact absurd this (Nat.lt_irrefl _)
    · exact ih h.2 e1 e2

/-- dropping the head of the rest -/
theorem Inv.tail {A : List (Nat × V)} {u : V} {r : Rest} (h : Inv t A ((u, none) :: r)) : Inv t A r := by
  refine ⟨h.sorted, ?_, ?_⟩
  · intro pre v i post e
    obtain ⟨h1, h2, h3⟩ := h.owners ((u, none) :: pre) v i post (by rw [e]; rfl)
    exact ⟨fun e he => h1 e (List.mem_cons_of_mem _ he), h2, h3⟩
  · intro i z hz pre v m post e hpre
    refine h.clean i z hz ((u, none) :: pre) v m post (by rw [e]; rfl) ?_
    intro e he
    rcases List.mem_cons.mp he with rfl | he
    · simp
    · exact hpre e he

/-- adding an element to `A` -/
theorem Inv.push {A : List (Nat × V)} {r : Rest} (h : Inv t A r) {f : Nat} (hf : ∀ a ∈ A, a.1 < f) {u : V}
    (hu : ∀ v, (v, none) ∈ r → ¬ Yes t u v) : Inv t (A ++ [(f, u)]) r := by
  refine ⟨?_, ?_, ?_⟩
  · rw [List.pairwise_append]
    refine ⟨h.sorted, List.pairwise_singleton _ _, ?_⟩
    intro a ha b hb
    rw [List.mem_singleton] at hb
    subst hb
    exact hf a ha
  · intro pre v i post e
    obtain ⟨h1, h2, z, h3, h4⟩ := h.owners pre v i post e
    exact ⟨h1, h2, z, List.mem_append_left _ h3, h4⟩
  · intro i z hz pre v m post e hpre hm hor
    rcases List.mem_append.mp hz with hz | hz
    · exact h.clean i z hz pre v m post e hpre hm hor
    · rw [List.mem_singleton] at hz
      cases hz
      rcases hor with rfl | ⟨j, rfl, hj⟩
      · exact hu v (by rw [e]; simp)
      · obtain ⟨_, _, z, h3, _⟩ := h.owners pre v j post e
        have := hf _ h3
        dsimp only at this
        omega

/-- marking a copy as taken by the new element -/
theorem Inv.take {A : List (Nat × V)} {u v : V} {pre post : Rest} (h : Inv t A (pre ++ (v, none) :: post)) {f : Nat} (hf : ∀ a ∈ A, a.1 < f)
    (hpre : ∀ w, (w, none) ∈ pre → ¬ Yes t u w) (huv : Yes t u v) : Inv t (A ++ [(f, u)]) (pre ++ (v, some f) :: post) := by
  have nof : ∀ w i, (w, some i) ∈ pre ∨ (w, some i) ∈ post → i < f := by
    intro w i hw
    have : (w, some i) ∈ pre ++ (v, none) :: post := by
      rcases hw with h | h
      · exact List.mem_append_left _ h
      · exact List.mem_append_right _ (List.mem_cons_of_mem _ h)
    obtain ⟨a, b, e⟩ := List.append_of_mem this
    obtain ⟨_, _, z, hz, _⟩ := h.owners a w i b e
    exact hf _ hz
  refine ⟨?_, ?_, ?_⟩
  · rw [List.pairwise_append]
    refine ⟨h.sorted, List.pairwise_singleton _ _, ?_⟩
    intro a ha b hb
    rw [List.mem_singleton] at hb
    subst hb
    exact hf a ha
  · intro p w i q e
    rcases List.append_eq_append_iff.mp e with ⟨c, hc1, hc2⟩ | ⟨c, hc1, hc2⟩
    · -- p = pre ++ c
      cases c with
      | nil =>
        simp only [List.append_nil, List.nil_append] at hc1 hc2
        cases hc2
        subst hc1
        refine ⟨?_, ?_, u, by simp, huv⟩
        · intro e he h'
          have := nof e.1 f (Or.inl (by rw [← h']; exact he))
          omega
        · intro e he h'
          have := nof e.1 f (Or.inr (by rw [← h']; exact he))
          omega
      | cons d c =>
        simp only [List.cons_append] at hc2
        cases hc2
        obtain ⟨h1, h2, z, h3, h4⟩ := h.owners (pre ++ (v, none) :: c) w i q (by simp)
        refine ⟨?_, h2, z, List.mem_append_left _ h3, h4⟩
        rw [hc1]
        intro e he
        rcases List.mem_append.mp he with he | he
        · exact h1 e (List.mem_append_left _ he)
        · rcases List.mem_cons.mp he with rfl | he
          · intro h'
            have := hf _ h3
            cases h'
            exact absurd this (Nat.lt_irrefl _)
          · exact h1 e (List.mem_append_right _ (List.mem_cons_of_mem _ he))
    · cases c with
      | nil =>
        simp only [List.append_nil, List.nil_append] at hc1 hc2
        cases hc2
        subst hc1
        refine ⟨?_, ?_, u, by simp, huv⟩
        · intro e he h'
          have := nof e.1 f (Or.inl (by rw [← h']; exact he))
          omega
        · intro e he h'
          have := nof e.1 f (Or.inr (by rw [← h']; exact he))
          omega
      | cons d c =>
        simp only [List.cons_append] at hc2
        cases hc2
        obtain ⟨h1, h2, z, h3, h4⟩ := h.owners p w i (c ++ (v, none) :: post) (by rw [hc1]; simp)
        refine ⟨h1, ?_, z, List.mem_append_left _ h3, h4⟩
        intro e he
        rcases List.mem_append.mp he with he | he
        · exact h2 e (List.mem_append_left _ he)
        · rcases List.mem_cons.mp he with rfl | he
          · intro h'
            have := hf _ h3
            cases h'
            exact absurd this (Nat.lt_irrefl _)
          · exact h2 e (List.mem_append_right _ (List.mem_cons_of_mem _ he))
  · intro i z hz p w m q e hp hm hor
    rcases List.mem_append.mp hz with hz | hz
    · -- an old element
      have hif := hf _ hz
      rcases List.append_eq_append_iff.mp e with ⟨c, hc1, hc2⟩ | ⟨c, hc1, hc2⟩
      · cases c with
        | nil =>
          simp only [List.append_nil, List.nil_append] at hc1 hc2
          cases hc2
          subst hc1
          exact h.clean i z hz p v none _ rfl hp (by simp) (Or.inl rfl)
        | cons d c =>
          simp only [List.cons_append] at hc2
          cases hc2
          refine h.clean i z hz (pre ++ (v, none) :: c) w m q (by simp) ?_ hm hor
          intro e he
          rcases List.mem_append.mp he with he | he
          · exact hp e (by rw [hc1]; exact List.mem_append_left _ he)
          · rcases List.mem_cons.mp he with rfl | he
            · simp
            · exact hp e (by rw [hc1]; exact List.mem_append_right _ (List.mem_cons_of_mem _ he))
      · cases c with
        | nil =>
          simp only [List.append_nil, List.nil_append] at hc1 hc2
          cases hc2
          subst hc1
          exact h.clean i z hz pre v none _ rfl hp (by simp) (Or.inl rfl)
        | cons d c =>
          simp only [List.cons_append] at hc2
          cases hc2
          exact h.clean i z hz p w m (c ++ (v, none) :: post) (by rw [hc1]; simp) hp hm hor
    · -- the new element
      rw [List.mem_singleton] at hz
      cases hz
      rcases List.append_eq_append_iff.mp e with ⟨c, hc1, hc2⟩ | ⟨c, hc1, hc2⟩
      · cases c with
        | nil =>
          simp only [List.append_nil, List.nil_append] at hc1 hc2
          cases hc2
          exact absurd rfl hm
        | cons d c =>
          simp only [List.cons_append] at hc2
          cases hc2
          exact absurd rfl (hp (v, some f) (by rw [hc1]; simp))
      · cases c with
        | nil =>
          simp only [List.append_nil, List.nil_append] at hc1 hc2
          cases hc2
          exact absurd rfl hm
        | cons d c =>
          simp only [List.cons_append] at hc2
          cases hc2
          have hmem : (w, m) ∈ pre := by rw [hc1]; simp
          rcases hor with rfl | ⟨j, rfl, hj⟩
          · exact hpre w hmem
          · have := nof w j (Or.inl hmem)
            omega

theorem present_append (a b : Rest) : present (a ++ b) = present a ++ present b := by
  simp [present]

theorem mem_present {r : Rest} {v : V} : v ∈ present r ↔ (v, none) ∈ r := by
  simp only [present, List.mem_map, List.mem_filter, decide_eq_true_eq]
  constructor
  · rintro ⟨⟨a, b⟩, ⟨h1, h2⟩, rfl⟩
    dsimp only at h2
    subst h2
    exact h1
  · intro h; exact ⟨(v, none), ⟨h, rfl⟩, rfl⟩

open Classical in
/-- the first copy that is a match -/
theorem first_present {r : Rest} {u : V} (h : ∃ v, (v, none) ∈ r ∧ Yes t u v) :
    ∃ pre v post, r = pre ++ (v, none) :: post ∧ (∀ w, (w, none) ∈ pre → ¬ Yes t u w) ∧ Yes t u v := by
  induction r with
  | nil => obtain ⟨v, hv, _⟩ := h; cases hv
  | cons e r ih =>
    obtain ⟨w, m⟩ := e
    by_cases hw : m = none ∧ Yes t u w
    · obtain ⟨rfl, hw⟩ := hw
      exact ⟨[], w, r, rfl, by simp, hw⟩
    · have : ∃ v, (v, none) ∈ r ∧ Yes t u v := by
        obtain ⟨v, hv, hy⟩ := h
        rcases List.mem_cons.mp hv with e | hv
        · cases e; exact absurd ⟨rfl, hy⟩ hw
        · exact ⟨v, hv, hy⟩
      obtain ⟨pre, v, post, e, h1, h2⟩ := ih this
      refine ⟨(w, m) :: pre, v, post, by rw [e]; rfl, ?_, h2⟩
      intro x hx
      rcases List.mem_cons.mp hx with e | hx
      · cases e; exact fun hy => hw ⟨rfl, hy⟩
      · exact h1 x hx

theorem erase_mid (a b : List V) (v : V) : (a ++ v :: b).eraseIdx a.length = a ++ b := by
  induction a with
  | nil => rfl
  | cons x a ih => simp [ih]

open Classical in
theorem greedy_inv (sym : ∀ x y, t x y = t y x) (refl : ∀ x, t x x ≠ some false)
    (l : List V) (hmem : ∀ x ∈ l, (∀ q, x ≠ .ref q) → ∀ ys, x ∈ ys → mem x ys = true) :
    ∀ (n : Nat) (r : Rest) (A : List (Nat × V)), (∀ e ∈ r, e.1 ∈ l) → r.length = n → Inv t A r → greedy t mem (r.map Prod.fst) (A.map Prod.snd ++ present r) = true := by
  intro n
  induction n with
  | zero =>
    intro r A _ hn h
    have : r = [] := List.eq_nil_of_length_eq_zero hn
    subst this
    simp [greedy]
  | succ n ih =>
    intro r A hl hn h
    cases r with
    | nil => cases hn
    | cons e r =>
      obtain ⟨u, m⟩ := e
      have hn' : r.length = n := by simpa using hn
      have hl' : ∀ e ∈ r, e.1 ∈ l := fun e he => hl e (List.mem_cons_of_mem _ he)
      cases m with
      | some i =>
        -- its copy was taken by the element with tag `i`, whose own copy is still there
        obtain ⟨_, hno, z, hz, hzu⟩ := h.owners [] u i r rfl
        obtain ⟨A1, A2, hA⟩ := List.append_of_mem hz
        have hsort := h.sorted
        rw [hA, List.pairwise_append, List.pairwise_cons] at hsort
        obtain ⟨hs1, ⟨hs2, hs3⟩, hs4⟩ := hsort
        have hA1 : ∀ w ∈ A1.map Prod.snd, ¬ Yes t u w := by
          intro w hw hy
          obtain ⟨⟨j, w'⟩, hj, rfl⟩ := List.mem_map.mp hw
          have hlt := hs4 _ hj _ List.mem_cons_self
          dsimp only at hlt
          exact h.clean j w' (by rw [hA]; exact List.mem_append_left _ hj) [] u (some i) r rfl (by simp)
            (by intro e; cases e; exact absurd hlt (Nat.lt_irrefl _)) (Or.inr ⟨i, rfl, hlt⟩) (yes_symm sym hy)
        obtain ⟨x, y, rfl, rfl, hxy⟩ := yes_symm sym hzu
        have hR : A.map Prod.snd ++ present ((V.ref x, some i) :: r) = A1.map Prod.snd ++ .ref y :: (A2.map Prod.snd ++ present r) := by
          rw [hA]; simp [present]
        rw [hR]
        simp only [List.map_cons, greedy]
        rw [pureCand_first hxy _ _ 0 _ hA1]
        dsimp only
        rw [Nat.zero_add, erase_mid, ← List.append_assoc, ← List.map_append]
        refine ih r (A1 ++ A2) hl' hn' ⟨?_, ?_, ?_⟩
        · rw [List.pairwise_append]
          exact ⟨hs1, hs3, fun a ha b hb => hs4 a ha b (List.mem_cons_of_mem _ hb)⟩
        · intro pre w j post e
          obtain ⟨h1, h2, z', h3, h4⟩ := h.owners ((V.ref x, some i) :: pre) w j post (by rw [e]; rfl)
          refine ⟨fun e he => h1 e (List.mem_cons_of_mem _ he), h2, z', ?_, h4⟩
          have hij : some i ≠ some j := h1 _ List.mem_cons_self
          rw [hA] at h3
          rcases List.mem_append.mp h3 with h | h
          · exact List.mem_append_left _ h
          · rcases List.mem_cons.mp h with h | h
            · cases h; exact absurd rfl hij
            · exact List.mem_append_right _ h
        · intro j z' hz' pre w m post e hpre hm hor
          have hz'' : (j, z') ∈ A := by
            rw [hA]
            rcases List.mem_append.mp hz' with h | h
            · exact List.mem_append_left _ h
            · exact List.mem_append_right _ (List.mem_cons_of_mem _ h)
          have hne : i ≠ j := by
            rintro rfl
            rcases List.mem_append.mp hz' with h | h
            · have := hs4 _ h _ List.mem_cons_self; exact absurd this (Nat.lt_irrefl _)
            · have := hs2 _ h; exact absurd this (Nat.lt_irrefl _)
          refine h.clean j z' hz'' ((V.ref x, some i) :: pre) w m post (by rw [e]; rfl) ?_ hm hor
          intro e he
          rcases List.mem_cons.mp he with rfl | he
          · intro h'; cases h'; exact hne rfl
          · exact hpre e he
      | none =>
        have hA : ∀ w ∈ A.map Prod.snd, ¬ Yes t u w := by
          intro w hw hy
          obtain ⟨⟨j, w'⟩, hj, rfl⟩ := List.mem_map.mp hw
          exact h.clean j w' hj [] u none r rfl (by simp) (by simp) (Or.inl rfl) (yes_symm sym hy)
        have hpres : present ((u, none) :: r) = u :: present r := by simp [present]
        obtain ⟨f, hf⟩ := exists_fresh A
        have hpush : (A ++ [(f, u)]).map Prod.snd ++ present r = A.map Prod.snd ++ present ((u, none) :: r) := by
          rw [hpres]; simp
        by_cases href : ∃ x, u = .ref x
        · obtain ⟨x, rfl⟩ := href
          rcases hxx : t x x with _ | _ | _
          · -- in progress: its own copy is no match
            by_cases hex : ∃ v, (v, none) ∈ r ∧ Yes t (.ref x) v
            · obtain ⟨pre, v, post, rfl, h1, h2⟩ := first_present hex
              obtain ⟨x', y, hx', rfl, hxy⟩ := h2
              cases hx'
              have hR : A.map Prod.snd ++ present ((V.ref x, none) :: (pre ++ (V.ref y, none) :: post)) =
                  (A.map Prod.snd ++ .ref x :: present pre) ++ .ref y :: present post := by
                rw [hpres, present_append]; simp [present]
              rw [hR]
              simp only [List.map_cons, greedy]
              rw [pureCand_first hxy _ _ 0 _ (by
                intro w hw
                rcases List.mem_append.mp hw with hw | hw
                · exact hA w hw
                · rcases List.mem_cons.mp hw with rfl | hw
                  · rintro ⟨a, b, ha, hb, hab⟩
                    cases ha
                    cases hb
                    rw [hxx] at hab
                    cases hab
                  · exact h1 w (mem_present.mp hw))]
              dsimp only
              rw [Nat.zero_add, erase_mid]
              have := ih (pre ++ (V.ref y, some f) :: post) (A ++ [(f, .ref x)]) (by
                  intro e he
                  rcases List.mem_append.mp he with he | he
                  · exact hl' e (List.mem_append_left _ he)
                  · rcases List.mem_cons.mp he with rfl | he
                    · exact hl' (V.ref y, none) (by simp)
                    · exact hl' e (List.mem_append_right _ (List.mem_cons_of_mem _ he)))
                (by simpa using hn')
                (h.tail.take hf h1 ⟨x, y, rfl, rfl, hxy⟩)
              rw [present_append] at this
              simpa [present] using this
            · have hno : ∀ v, (v, none) ∈ r → ¬ Yes t (.ref x) v := fun v hv hy => hex ⟨v, hv, hy⟩
              have hall : ∀ w ∈ A.map Prod.snd ++ present ((V.ref x, none) :: r), ¬ Yes t (.ref x) w := by
                intro w hw
                rcases List.mem_append.mp hw with hw | hw
                · exact hA w hw
                · rw [hpres] at hw
                  rcases List.mem_cons.mp hw with rfl | hw
                  · rintro ⟨a, b, ha, hb, hab⟩
                    cases ha
                    cases hb
                    rw [hxx] at hab
                    cases hab
                  · exact hno w (mem_present.mp hw)
              obtain ⟨j, hj⟩ := pureCand_none _ 0 (some false) hall (Or.inr ⟨rfl, x, by rw [hpres]; simp, hxx⟩)
              simp only [List.map_cons, greedy, hj]
              rw [← hpush]
              exact ih r _ hl' hn' (h.tail.push hf hno)
          · exact absurd hxx (refl x)
          · rw [hpres]
            simp only [List.map_cons, greedy]
            rw [pureCand_first hxx _ _ 0 _ hA]
            dsimp only
            rw [Nat.zero_add, erase_mid]
            exact ih r A hl' hn' h.tail
        · have hn : ∀ q, u ≠ .ref q := fun q hq => href ⟨q, hq⟩
          have hg : greedy t mem (((u, none) :: r).map Prod.fst) (A.map Prod.snd ++ present ((u, none) :: r)) =
              (mem u (A.map Prod.snd ++ present ((u, none) :: r)) &&
                greedy t mem (r.map Prod.fst) (A.map Prod.snd ++ present ((u, none) :: r))) := by
            cases u <;> first | rfl | exact absurd rfl (hn _)
          rw [hg, hmem u (hl _ List.mem_cons_self) hn _ (by rw [hpres]; simp), Bool.true_and, ← hpush]
          refine ih r _ hl' hn' (h.tail.push hf ?_)
          rintro v _ ⟨a, b, ha, _, _⟩
          exact hn a ha

/-- A list matched against itself is never found to differ. -/
theorem greedy_self (sym : ∀ x y, t x y = t y x) (refl : ∀ x, t x x ≠ some false)
    (l : List V) (hmem : ∀ x ∈ l, (∀ q, x ≠ .ref q) → ∀ ys, x ∈ ys → mem x ys = true) : greedy t mem l l = true := by
  have := greedy_inv sym refl l hmem l.length (l.map (fun v => (v, none))) [] (by simp) (by simp)
    ⟨List.Pairwise.nil, by
      intro pre u i post e
      have : (u, some i) ∈ l.map (fun v => (v, (none : Option Nat))) := by rw [e]; simp
      simp at this, by simp⟩
  have hp : present (l.map (fun v => (v, none))) = l := by
    unfold present
    rw [List.filter_eq_self.mpr (by simp), List.map_map]
    exact List.map_id l
  have hm : (l.map (fun v => (v, (none : Option Nat)))).map Prod.fst = l := by
    rw [List.map_map]; exact List.map_id l
  rw [hp, hm] at this
  exact this

end Verif.Equal
