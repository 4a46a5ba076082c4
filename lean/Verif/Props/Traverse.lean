import Verif.Model.Traverse
/-!
# Generic part of C36 and C37: the loop visits every reachable entity exactly once
-/
set_option linter.unusedSimpArgs false
set_option linter.unusedSectionVars false
set_option linter.unusedVariables false

namespace Verif.Traverse
open Verif.Py
variable {σ α κ : Type} [DecidableEq κ]

/-- reachable through attributes and containers -/
inductive Reach (kids : α → List α) : α → α → Prop where
  | refl (x : α) : Reach kids x x
  | step {x y z : α} : y ∈ kids x → Reach kids y z → Reach kids x z

theorem Reach.trans {kids : α → List α} {x y z : α} (h : Reach kids x y) (g : Reach kids y z) : Reach kids x z := by
  induction h with
  | refl _ => exact g
  | step hm _ ih => exact .step hm (ih g)

theorem Reach.snoc {kids : α → List α} {x y z : α} (h : Reach kids x y) (g : z ∈ kids y) : Reach kids x z :=
  h.trans (.step g (.refl _))

/-- What is asked of a graph, with `kids` the children of the objects:
equal keys mean the same entity and matching children; reachable keys are finitely many; containers are not nested without end. -/
structure Regular (G : Graph σ α κ) (kids : α → List α) (root : α) : Prop where
  entity_key : ∀ x, G.entity x = true → ∃ k, G.hash x = .key k
  same_entity : ∀ x y k, G.hash x = .key k → G.hash y = .key k → G.entity x = true → x = y
  same_kids : ∀ x y k, G.hash x = .key k → G.hash y = .key k → x = y ∨
    ∀ z ∈ kids y, ∃ z' ∈ kids x, ∃ k', G.hash z = .key k' ∧ G.hash z' = .key k'
  finite : ∃ U : List κ, ∀ x k, Reach kids root x → G.hash x = .key k → k ∈ U
  nested : ∃ w : α → Nat, ∀ x, Reach kids root x → 0 < w x ∧ (G.hash x = .unhashable → ((kids x).map w).sum < w x)

/-- the calls of the function, in order; stops at the first exception -/
def calls (func : σ → α → Except PyErr σ) : σ → List α → Except PyErr σ
  | s, [] => .ok s
  | s, x :: xs => match func s x with
    | .ok s' => calls func s' xs
    | .error e => .error e

/-- how the loop ends after the calls: with the exception of a call if one raised, else with TypeError if it came upon a tuple that
cannot be hashed -/
def ends (stuck : Bool) (r : Except PyErr σ) : Except PyErr σ := match r with
  | .error e => .error e
  | .ok s => if stuck then .error .typeError else .ok s

/-- number of keys of `U` that have not been seen -/
def unseen (U seen : List κ) : Nat := (U.filter (fun k => decide (k ∉ seen))).length

theorem unseen_lt {U seen : List κ} {k : κ} (hU : k ∈ U) (hs : k ∉ seen) : unseen U (k :: seen) < unseen U seen := by
  unfold unseen
  induction U with
  | nil => cases hU
  | cons u us ih =>
    have le : ∀ us : List κ, (us.filter (fun k' => decide (k' ∉ k :: seen))).length ≤ (us.filter (fun k => decide (k ∉ seen))).length := by
      intro us
      induction us with
      | nil => exact Nat.le_refl _
      | cons v vs ihv =>
        simp only [List.filter_cons]
        by_cases h1 : v ∉ seen <;> by_cases h2 : v ∉ k :: seen
        · rw [if_pos (by simpa using h2), if_pos (by simpa using h1)]; simp only [List.length_cons]; omega
        · rw [if_neg (by simpa using h2), if_pos (by simpa using h1)]; simp only [List.length_cons]; omega
        · exact absurd (fun h => h2 (List.mem_cons_of_mem _ h)) h1
        · rw [if_neg (by simpa using h2), if_neg (by simpa using h1)]; exact ihv
    by_cases hu : u = k
    · subst hu
      rw [List.filter_cons, List.filter_cons, if_neg (by simp), if_pos (by simpa using hs)]
      have := le us
      simp only [List.length_cons]; omega
    · have hk : k ∈ us := by
        rcases List.mem_cons.mp hU with h | h
        · exact absurd h.symm hu
        · exact h
      have := ih hk
      rw [List.filter_cons, List.filter_cons]
      by_cases h1 : u ∉ seen
      · have h2 : u ∉ k :: seen := by simp [hu, h1]
        rw [if_pos (by simpa using h2), if_pos (by simpa using h1)]; simp only [List.length_cons]; omega
      · have h2 : ¬ u ∉ k :: seen := by
          intro h; exact h1 (fun h' => h (List.mem_cons_of_mem _ h'))
        rw [if_neg (by simpa using h2), if_neg (by simpa using h1)]; exact this

/-- the invariant of the loop; `done` are the objects that have been expanded, `seen` their keys -/
structure Inv (G : Graph σ α κ) (kids : α → List α) (root : α) (seen : List κ) (done queue : List α) : Prop where
  reach : ∀ x ∈ done ++ queue, Reach kids root x
  root : root ∈ done ++ queue ∨ ∃ k, G.hash root = .key k ∧ k ∈ seen
  closed : ∀ x ∈ done, ∀ y ∈ kids x, y ∈ done ++ queue ∨ ∃ k, G.hash y = .key k ∧ k ∈ seen
  seen_iff : ∀ k, k ∈ seen ↔ ∃ x ∈ done, G.hash x = .key k

/-- one object is expanded -/
theorem Inv.expand {G : Graph σ α κ} {kids : α → List α} {root x : α} {seen seen' : List κ} {done queue : List α}
    (inv : Inv G kids root seen done (x :: queue))
    (hseen : ∀ k, k ∈ seen' ↔ k ∈ seen ∨ G.hash x = .key k) :
    Inv G kids root seen' (x :: done) ((kids x).reverse ++ queue) := by
  have hx : Reach kids root x := inv.reach x (by simp)
  have sub : ∀ y, y ∈ done ++ x :: queue → y ∈ (x :: done) ++ ((kids x).reverse ++ queue) := by
    intro y hy
    simp only [List.mem_append, List.mem_cons, List.mem_reverse] at hy ⊢
    rcases hy with h | h | h
    · exact Or.inl (Or.inr h)
    · exact Or.inl (Or.inl h)
    · exact Or.inr (Or.inr h)
  have mono : ∀ y, (∃ k, G.hash y = .key k ∧ k ∈ seen) → ∃ k, G.hash y = .key k ∧ k ∈ seen' := by
    rintro y ⟨k, h1, h2⟩
    exact ⟨k, h1, (hseen k).mpr (Or.inl h2)⟩
  refine ⟨?_, ?_, ?_, ?_⟩
  · intro y hy
    simp only [List.mem_append, List.mem_cons, List.mem_reverse] at hy
    rcases hy with (rfl | h) | (h | h)
    · exact hx
    · exact inv.reach y (List.mem_append_left _ h)
    · exact hx.snoc h
    · exact inv.reach y (List.mem_append_right _ (List.mem_cons_of_mem _ h))
  · exact inv.root.imp (sub _) (mono _)
  · intro y hy z hz
    rcases List.mem_cons.mp hy with rfl | hy
    · left
      simp only [List.mem_append, List.mem_cons, List.mem_reverse]
      exact Or.inr (Or.inl hz)
    · exact (inv.closed y hy z hz).imp (sub _) (mono _)
  · intro k
    rw [hseen, inv.seen_iff]
    constructor
    · rintro (⟨y, h1, h2⟩ | h)
      · exact ⟨y, List.mem_cons_of_mem _ h1, h2⟩
      · exact ⟨x, List.mem_cons_self, h⟩
    · rintro ⟨y, h1, h2⟩
      rcases List.mem_cons.mp h1 with rfl | h1
      · exact Or.inr h2
      · exact Or.inl ⟨y, h1, h2⟩

/-- the function does not change what is pushed for an object -/
def Keeps (G : Graph σ α κ) (kids : α → List α) (func : σ → α → Except PyErr σ) : Prop :=
  ∀ s x s', func s x = .ok s' → (∀ y, G.kids s y = kids y) → ∀ y, G.kids s' y = kids y

/-- what is left to do from a given state of the loop -/
theorem loop_spec (G : Graph σ α κ) (kids : α → List α) (root : α) (reg : Regular G kids root) {U : List κ}
    (hU : ∀ x k, Reach kids root x → G.hash x = .key k → k ∈ U) {w : α → Nat}
    (hw : ∀ x, Reach kids root x → 0 < w x ∧ (G.hash x = .unhashable → ((kids x).map w).sum < w x)) :
    ∀ (m : Nat × Nat) (seen : List κ) (done queue : List α),
      m = (unseen U seen, (queue.map w).sum) → Inv G kids root seen done queue →
      ∃ (n : Nat) (seen' : List κ) (done' queue' : List α) (stuck : Bool), Inv G kids root seen' (done' ++ done) queue' ∧
        (∀ x ∈ done', ∀ k, G.hash x = .key k → k ∉ seen) ∧
        ((done'.filter G.entity).Nodup) ∧
        (∀ x ∈ done', G.hash x ≠ .raises) ∧
        (stuck = false → queue' = []) ∧ (stuck = true → ∃ x, Reach kids root x ∧ G.hash x = .raises) ∧
        ∀ applyFirst func, Keeps G kids func → ∀ s, (∀ y, G.kids s y = kids y) →
          ∀ n' ≥ n, loop G applyFirst func n' s seen queue = some (ends stuck (calls func s (done'.filter G.entity).reverse)) := by
  intro m
  induction m using (Prod.lex ⟨_, Nat.lt_wfRel.wf⟩ ⟨_, Nat.lt_wfRel.wf⟩ : WellFoundedRelation (Nat × Nat)).wf.induction with
  | _ m ih =>
  intro seen done queue hm inv
  subst hm
  cases queue with
  | nil =>
    refine ⟨1, seen, [], [], false, by simpa using inv, by simp, by simp, by simp, fun _ => rfl, by simp, ?_⟩
    intro applyFirst func hk s hs n' hn'
    obtain ⟨k, rfl⟩ : ∃ k, n' = k + 1 := ⟨n' - 1, by omega⟩
    simp [loop, calls, ends]
  | cons x queue =>
    have hx : Reach kids root x := inv.reach x (by simp)
    by_cases hr : G.hash x = .raises
    · -- the loop stops here
      refine ⟨1, seen, [], x :: queue, true, by simpa using inv, by simp, by simp, by simp, by simp, fun _ => ⟨x, hx, hr⟩, ?_⟩
      intro applyFirst func hk s hs n' hn'
      obtain ⟨k, rfl⟩ : ∃ k, n' = k + 1 := ⟨n' - 1, by omega⟩
      simp [loop, calls, ends, hr]
    -- one round that expands `x`
    have round : ∀ seen' : List κ, mark seen (G.hash x) = some seen' →
        (∀ k, k ∈ seen' ↔ k ∈ seen ∨ G.hash x = .key k) → (∀ k, G.hash x = .key k → k ∉ seen) →
        Prod.Lex (· < ·) (· < ·) (unseen U seen', ((((kids x).reverse ++ queue)).map w).sum) (unseen U seen, ((x :: queue).map w).sum) →
        ∃ (n : Nat) (seen' : List κ) (done' queue' : List α) (stuck : Bool), Inv G kids root seen' (done' ++ done) queue' ∧
          (∀ x ∈ done', ∀ k, G.hash x = .key k → k ∉ seen) ∧
          ((done'.filter G.entity).Nodup) ∧
          (∀ x ∈ done', G.hash x ≠ .raises) ∧
          (stuck = false → queue' = []) ∧ (stuck = true → ∃ x, Reach kids root x ∧ G.hash x = .raises) ∧
          ∀ applyFirst func, Keeps G kids func → ∀ s, (∀ y, G.kids s y = kids y) → ∀ n' ≥ n, loop G applyFirst func n' s seen (x :: queue) =
            some (ends stuck (calls func s (done'.filter G.entity).reverse)) := by
      intro seen' hmark hseen hnew hlt
      obtain ⟨n, seen'', done', queue', stuck, h1, h2, h3, h5, h6, h7, h4⟩ :=
        ih _ hlt seen' (x :: done) ((kids x).reverse ++ queue) rfl (inv.expand hseen)
      refine ⟨n + 1, seen'', done' ++ [x], queue', stuck, by simpa using h1, ?_, ?_, ?_, h6, h7, ?_⟩
      · intro y hy k hy'
        rcases List.mem_append.mp hy with h | h
        · intro hks
          exact h2 y h k hy' ((hseen k).mpr (Or.inl hks))
        · rw [List.mem_singleton] at h; subst h
          exact hnew k hy'
      · rw [List.filter_append, List.nodup_append]
        refine ⟨h3, ?_, ?_⟩
        · cases he : G.entity x <;> simp [List.filter, he]
        · intro a ha b hb hab
          subst hab
          rw [List.mem_filter] at ha hb
          have hxa : a = x := by simpa using hb.1
          subst hxa
          obtain ⟨k, hk'⟩ := reg.entity_key a ha.2
          exact h2 a ha.1 k hk' ((hseen k).mpr (Or.inr hk'))
      · intro y hy
        rcases List.mem_append.mp hy with h | h
        · exact h5 y h
        · rw [List.mem_singleton] at h; subst h
          exact hr
      · intro applyFirst func hk s hs n' hn'
        obtain ⟨k', rfl⟩ : ∃ k, n' = k + 1 := ⟨n' - 1, by omega⟩
        simp only [loop, if_neg hr, hmark]
        cases he : G.entity x with
        | false =>
          simp only [act, he, Bool.and_false, Bool.false_eq_true, if_false, hs]
          rw [h4 applyFirst func hk s hs k' (by omega)]
          simp [List.filter_append, List.filter, he]
        | true =>
          have e1 : (List.filter G.entity (done' ++ [x])).reverse = x :: (List.filter G.entity done').reverse := by
            simp [List.filter_append, List.filter, he]
          rw [e1]
          cases applyFirst with
          | true =>
            simp only [act, he, Bool.and_true, if_true, Bool.not_true, Bool.false_eq_true, if_false, calls]
            cases hf : func s x with
            | error e => rfl
            | ok s1 =>
              dsimp only
              rw [hk s x s1 hf hs]
              exact h4 _ func hk s1 (hk s x s1 hf hs) k' (by omega)
          | false =>
            simp only [act, he, Bool.and_true, if_true, Bool.not_false, Bool.false_eq_true, if_false, calls]
            cases hf : func s x with
            | error e => rfl
            | ok s1 =>
              dsimp only
              rw [hs]
              exact h4 _ func hk s1 (hk s x s1 hf hs) k' (by omega)
    cases hh : G.hash x with
    | raises => exact absurd hh hr
    | key k =>
      by_cases hks : k ∈ seen
      · -- skipped
        have inv' : Inv G kids root seen done queue := by
          have drop : ∀ y, y ∈ done ++ x :: queue → y ∈ done ++ queue ∨ ∃ k, G.hash y = .key k ∧ k ∈ seen := by
            intro y h
            rcases List.mem_append.mp h with h | h
            · exact Or.inl (List.mem_append_left _ h)
            · rcases List.mem_cons.mp h with h | h
              · subst h; exact Or.inr ⟨k, hh, hks⟩
              · exact Or.inl (List.mem_append_right _ h)
          refine ⟨fun y hy => inv.reach y ?_, ?_, ?_, inv.seen_iff⟩
          · rcases List.mem_append.mp hy with h | h
            · exact List.mem_append_left _ h
            · exact List.mem_append_right _ (List.mem_cons_of_mem _ h)
          · rcases inv.root with h | h
            · exact drop _ h
            · exact Or.inr h
          · intro y hy z hz
            rcases inv.closed y hy z hz with h | h
            · exact drop _ h
            · exact Or.inr h
        obtain ⟨n, seen', done', queue', stuck, h1, h2, h3, h5, h6, h7, h4⟩ := ih (unseen U seen, (queue.map w).sum)
          (Prod.Lex.right _ (by simp only [List.map_cons, List.sum_cons]; have := (hw x hx).1; show _ < _; omega)) seen done queue rfl inv'
        refine ⟨n + 1, seen', done', queue', stuck, h1, h2, h3, h5, h6, h7, ?_⟩
        intro applyFirst func hk s hs n' hn'
        obtain ⟨k', rfl⟩ : ∃ k, n' = k + 1 := ⟨n' - 1, by omega⟩
        simp only [loop, hh, mark, hks, if_true, reduceCtorEq, if_false]
        exact h4 applyFirst func hk s hs k' (by omega)
      · -- a new object
        refine round (k :: seen) (by simp [mark, hh, hks]) ?_ ?_ (Prod.Lex.left _ _ (unseen_lt (hU x k hx hh) hks))
        · intro k'
          rw [hh, List.mem_cons]
          simp only [Hash.key.injEq]
          constructor
          · rintro (h | h)
            · exact Or.inr h.symm
            · exact Or.inl h
          · rintro (h | h)
            · exact Or.inr h
            · exact Or.inl h.symm
        · intro k' h'
          rw [hh] at h'
          simp only [Hash.key.injEq] at h'
          subst h'; exact hks
    | unhashable =>
      refine round seen (by simp [mark, hh]) ?_ ?_ ?_
      · intro k'; simp [hh]
      · intro k' h'; rw [hh] at h'; cases h'
      · apply Prod.Lex.right
        have := (hw x hx).2 hh
        simp only [List.map_append, List.map_reverse, List.sum_append, List.sum_reverse, List.map_cons, List.sum_cons]
        omega

/-- at the end every reachable object, or an object with its key, has been expanded -/
theorem Inv.complete {G : Graph σ α κ} {kids : α → List α} {root : α} {seen : List κ} {done : List α} (reg : Regular G kids root)
    (inv : Inv G kids root seen done []) {x : α} (hx : Reach kids root x) :
    x ∈ done ∨ ∃ y ∈ done, ∃ k, G.hash x = .key k ∧ G.hash y = .key k := by
  have fix : ∀ y, (y ∈ done ++ [] ∨ ∃ k, G.hash y = .key k ∧ k ∈ seen) → y ∈ done ∨ ∃ z ∈ done, ∃ k, G.hash y = .key k ∧ G.hash z = .key k := by
    rintro y (h | ⟨k, h1, h2⟩)
    · left; simpa using h
    · obtain ⟨z, hz, hzk⟩ := (inv.seen_iff k).mp h2
      exact Or.inr ⟨z, hz, k, h1, hzk⟩
  have key : ∀ a b, Reach kids a b → (a ∈ done ∨ ∃ z ∈ done, ∃ k, G.hash a = .key k ∧ G.hash z = .key k) →
      (b ∈ done ∨ ∃ z ∈ done, ∃ k, G.hash b = .key k ∧ G.hash z = .key k) := by
    intro a b hab
    induction hab with
    | refl _ => exact id
    | @step a c b hm _ ih =>
      intro h
      apply ih
      rcases h with h | ⟨z, hz, k, h1, h2⟩
      · exact fix c (inv.closed a h c hm)
      · rcases reg.same_kids z a k h2 h1 with rfl | h3
        · exact fix c (inv.closed z hz c hm)
        · obtain ⟨c', hc', k', h4, h5⟩ := h3 c hm
          right
          rcases fix c' (inv.closed z hz c' hc') with h6 | ⟨z', hz', k'', h6, h7⟩
          · exact ⟨c', h6, k', h4, h5⟩
          · rw [h5] at h6
            simp only [Hash.key.injEq] at h6
            subst h6
            exact ⟨z', hz', k', h4, h7⟩
  exact key root x hx (fix root inv.root)

/-- C36, generic form: on every regular graph `recursive_foreach` ends. It calls the function on reachable entities only, on each at
most once. It gets stuck at a tuple that cannot be hashed if and only if there is one in reach; else it has called the function on all
reachable entities (or up to the first call that raises). The order depends neither on the function nor on `apply_first`. -/
theorem foreach_ends (G : Graph σ α κ) (kids : α → List α) (root : α) (reg : Regular G kids root) :
    ∃ (n : Nat) (order : List α) (stuck : Bool), order.Nodup ∧ (∀ x ∈ order, G.entity x = true ∧ Reach kids root x) ∧
      (stuck = false → ∀ x, G.entity x = true → Reach kids root x → x ∈ order) ∧
      (stuck = true ↔ ∃ x, Reach kids root x ∧ G.hash x = .raises) ∧
      ∀ applyFirst func, Keeps G kids func → ∀ s, (∀ y, G.kids s y = kids y) →
        ∀ n' ≥ n, recursiveForeach G applyFirst func n' s root = some (ends stuck (calls func s order)) := by
  obtain ⟨U, hU⟩ := reg.finite
  obtain ⟨w, hw⟩ := reg.nested
  have inv : Inv G kids root [] [] [root] :=
    ⟨by intro x hx; simp only [List.nil_append, List.mem_singleton] at hx; subst hx; exact .refl _, by simp, by simp, by simp⟩
  obtain ⟨n, seen', done', queue', stuck, h1, h2, h3, h5, h6, h7, h4⟩ := loop_spec G kids root reg hU hw _ [] [] [root] rfl inv
  rw [List.append_nil] at h1
  refine ⟨n, (done'.filter G.entity).reverse, stuck, List.pairwise_reverse.mpr (h3.imp Ne.symm), ?_, ?_, ⟨h7, ?_⟩, h4⟩
  · intro x hx
    rw [List.mem_reverse, List.mem_filter] at hx
    exact ⟨hx.2, h1.reach x (List.mem_append_left _ hx.1)⟩
  · intro hst x he hx
    rw [List.mem_reverse, List.mem_filter]
    refine ⟨?_, he⟩
    rw [h6 hst] at h1
    rcases h1.complete reg hx with h | ⟨y, hy, k, h8, h9⟩
    · exact h
    · rw [reg.same_entity x y k h8 h9 he]; exact hy
  · rintro ⟨x, hx, hr⟩
    cases hst : stuck with
    | true => rfl
    | false =>
      rw [h6 hst] at h1
      rcases h1.complete reg hx with h | ⟨y, hy, k, h8, h9⟩
      · exact absurd hr (h5 x h)
      · rw [hr] at h8; cases h8

/-- C36, generic form, if every object in reach can be hashed or has no hash: the function is called on all reachable entities -/
theorem foreach_order (G : Graph σ α κ) (kids : α → List α) (root : α) (reg : Regular G kids root)
    (total : ∀ x, Reach kids root x → G.hash x ≠ .raises) :
    ∃ (n : Nat) (order : List α), order.Nodup ∧ (∀ x, x ∈ order ↔ G.entity x = true ∧ Reach kids root x) ∧
      ∀ applyFirst func, Keeps G kids func → ∀ s, (∀ y, G.kids s y = kids y) →
        ∀ n' ≥ n, recursiveForeach G applyFirst func n' s root = some (calls func s order) := by
  obtain ⟨n, order, stuck, h1, h2, h3, h4, h5⟩ := foreach_ends G kids root reg
  cases stuck with
  | true => obtain ⟨x, hx, hr⟩ := h4.mp rfl; exact absurd hr (total x hx)
  | false =>
    refine ⟨n, order, h1, fun x => ⟨h2 x, fun h => h3 rfl x h.1 h.2⟩, ?_⟩
    intro applyFirst func hk s hs n' hn'
    rw [h5 applyFirst func hk s hs n' hn']
    cases calls func s order <;> rfl

/-- the same, for one function -/
theorem foreach_spec (G : Graph σ α κ) (applyFirst : Bool) (func : σ → α → Except PyErr σ) (kids : α → List α) (s : σ) (root : α)
    (hs : ∀ y, G.kids s y = kids y) (hk : ∀ s x s', func s x = .ok s' → (∀ y, G.kids s y = kids y) → ∀ y, G.kids s' y = kids y)
    (reg : Regular G kids root) :
    ∃ (n : Nat) (order : List α) (stuck : Bool), order.Nodup ∧ (∀ x ∈ order, G.entity x = true ∧ Reach kids root x) ∧
      (stuck = false → ∀ x, G.entity x = true → Reach kids root x → x ∈ order) ∧
      (stuck = true ↔ ∃ x, Reach kids root x ∧ G.hash x = .raises) ∧
      ∀ n' ≥ n, recursiveForeach G applyFirst func n' s root = some (ends stuck (calls func s order)) := by
  obtain ⟨n, order, stuck, h1, h2, h3, h4, h5⟩ := foreach_ends G kids root reg
  exact ⟨n, order, stuck, h1, h2, h3, h4, h5 applyFirst func hk s hs⟩

/-- C37, generic form -/
theorem flatmap_spec {β : Type} (G : Graph σ α κ) (func : σ → α → Except PyErr (σ × List β)) (kids : α → List α) (s : σ) (root : α)
    (hs : ∀ y, G.kids s y = kids y)
    (hk : ∀ s x s' r, func s x = .ok (s', r) → (∀ y, G.kids s y = kids y) → ∀ y, G.kids s' y = kids y)
    (reg : Regular G kids root) :
    ∃ (n : Nat) (order : List α) (stuck : Bool), order.Nodup ∧ (∀ x ∈ order, G.entity x = true ∧ Reach kids root x) ∧
      (stuck = false → ∀ x, G.entity x = true → Reach kids root x → x ∈ order) ∧
      (stuck = true ↔ ∃ x, Reach kids root x ∧ G.hash x = .raises) ∧
      ∀ n' ≥ n, recursiveFlatmap G func n' s root = some (ends stuck (calls (collect func) (s, []) order)) := by
  have reg' : Regular (σ := σ × List β) ⟨G.hash, fun t => G.kids t.1, G.entity⟩ kids root :=
    ⟨reg.entity_key, reg.same_entity, reg.same_kids, reg.finite, reg.nested⟩
  refine foreach_spec (σ := σ × List β) ⟨G.hash, fun t => G.kids t.1, G.entity⟩ true _ kids (s, []) root hs ?_ reg'
  intro t x t' ht h y
  dsimp only [collect] at ht h ⊢
  split at ht
  · rename_i s' r hf
    cases ht
    exact hk t.1 x s' r hf h y
  · cases ht

end Verif.Traverse
