import Verif.Model.TraverseState
import Verif.Props.Visit
/-!
# C36, C38: what is left behind when a traversal raises

Specification: `callsS`, the calls of the callback in order, up to the first that raises.
-/

namespace Verif.Traverse
open Verif.Py

variable {σ α κ : Type} [DecidableEq κ]

/-- the calls of the callback, in order; stops at the first exception and keeps the state -/
def callsS (func : Callback σ α) : σ → List α → σ × Option PyErr
  | s, [] => (s, none)
  | s, x :: xs => match func s x with
    | (s', none) => callsS func s' xs
    | (s', some e) => (s', some e)

/-- after the calls: TypeError if none raised and a tuple cannot be hashed -/
def endsS (stuck : Bool) (r : σ × Option PyErr) : σ × Option PyErr := match r with
  | (s, some e) => (s, some e)
  | (s, none) => (s, if stuck then some .typeError else none)

/-- the entities in the order in which the loop comes upon them, and whether it comes upon a tuple that cannot be hashed -/
def trace (G : Graph σ α κ) (kids : α → List α) : Nat → List κ → List α → Option (List α × Bool)
  | 0, _, _ => none
  | _ + 1, _, [] => some ([], false)
  | n + 1, seen, x :: queue =>
    if G.hash x = .raises then some ([], true)
    else
      match mark seen (G.hash x) with
      | none => trace G kids n seen queue
      | some seen' => (trace G kids n seen' ((kids x).reverse ++ queue)).map fun r => (if G.entity x then x :: r.1 else r.1, r.2)

variable {G : Graph σ α κ} {kids : α → List α}

theorem trace_mono : ∀ {n : Nat} {seen : List κ} {queue : List α} {r : List α × Bool}, trace G kids n seen queue = some r → trace G kids (n + 1) seen queue = some r
  | 0, _, _, _, h => by simp [trace] at h
  | n + 1, _, [], _, h => by simpa [trace] using h
  | n + 1, seen, x :: queue, r, h => by
    rw [trace] at h ⊢
    split at h
    · rename_i hr
      rw [if_pos hr]
      exact h
    · rename_i hr
      rw [if_neg hr]
      cases hm : mark seen (G.hash x) with
      | none =>
        simp only [hm] at h ⊢
        exact trace_mono h
      | some seen' =>
        simp only [hm, Option.map_eq_some_iff] at h ⊢
        obtain ⟨q, h1, h2⟩ := h
        exact ⟨q, trace_mono h1, h2⟩

theorem trace_later {n n' : Nat} (hn : n ≤ n') {seen : List κ} {queue : List α} {r : List α × Bool} (h : trace G kids n seen queue = some r) : trace G kids n' seen queue = some r := by
  induction hn with
  | refl => exact h
  | step _ ih => exact trace_mono ih

/-- the loop whose callback never raises -/
theorem loop_total {af : Bool} {g : σ → α → σ} (keeps : ∀ s x, (∀ y, G.kids s y = kids y) → ∀ y, G.kids (g s x) y = kids y) :
    ∀ {n : Nat} {s : σ} {seen : List κ} {queue : List α}, (∀ y, G.kids s y = kids y) →
      loop G af (fun s x => .ok (g s x)) n s seen queue = (trace G kids n seen queue).map fun r => if r.2 then .error .typeError else .ok (r.1.foldl g s)
  | 0, _, _, _, _ => by simp [loop, trace]
  | n + 1, _, _, [], _ => by simp [loop, trace]
  | n + 1, s, seen, x :: queue, hk => by
    rw [loop, trace]
    split
    · rfl
    · cases hm : mark seen (G.hash x) with
      | none =>
        simp only []
        exact loop_total keeps hk
      | some seen' =>
        by_cases he : G.entity x = true
        · have hk' := keeps s x hk
          cases af
          · simp only [act, he, Bool.true_and, if_true, Bool.not_false, Bool.false_and, Bool.false_eq_true, if_false, hk x]
            rw [loop_total keeps hk', Option.map_map]
            rfl
          · simp only [act, he, Bool.true_and, if_true, Bool.not_true, Bool.false_and, Bool.false_eq_true, if_false, hk' x]
            rw [loop_total keeps hk', Option.map_map]
            rfl
        · simp only [act, he, Bool.and_false, Bool.false_eq_true, if_false, hk x]
          rw [loop_total keeps hk, Option.map_map]
          rfl

theorem calls_log {β : Type} (l : List α) : ∀ (b : β) (k : List α), calls (fun (s : β × List α) x => .ok (s.1, s.2 ++ [x])) (b, k) l = .ok (b, k ++ l) := by
  induction l with
  | nil => simp [calls]
  | cons x l ih => intro b k; simp [calls, ih]

theorem foldl_log {β : Type} (l : List α) : ∀ (b : β) (k : List α), l.foldl (fun (s : β × List α) x => (s.1, s.2 ++ [x])) (b, k) = (b, k ++ l) := by
  induction l with
  | nil => simp
  | cons x l ih => intro b k; simp [ih]

/-- the loop calls the callback on what the trace names -/
theorem loopS_trace {af : Bool} {func : Callback σ α} (keeps : ∀ s x, (∀ y, G.kids s y = kids y) → ∀ y, G.kids (func s x).1 y = kids y) :
    ∀ {n : Nat} {s : σ} {seen : List κ} {queue : List α} {r : List α × Bool}, (∀ y, G.kids s y = kids y) → trace G kids n seen queue = some r →
      loopS G af func n s seen queue = some (endsS r.2 (callsS func s r.1))
  | 0, _, _, _, _, _, h => by simp [trace] at h
  | n + 1, s, _, [], r, _, h => by
    simp only [trace, Option.some.injEq] at h
    subst h
    simp [loopS, callsS, endsS]
  | n + 1, s, seen, x :: queue, r, hk, h => by
    rw [trace] at h
    rw [loopS]
    split at h
    · rename_i hr
      cases h
      simp [hr, callsS, endsS]
    · rename_i hr
      rw [if_neg hr]
      cases hm : mark seen (G.hash x) with
      | none =>
        simp only [hm] at h ⊢
        exact loopS_trace keeps hk h
      | some seen' =>
        simp only [hm, Option.map_eq_some_iff] at h ⊢
        obtain ⟨q, h1, rfl⟩ := h
        by_cases he : G.entity x = true
        · have hk' := keeps s x hk
          cases af with
          | true =>
            simp only [actS, he, Bool.true_and, if_true, Bool.not_true, Bool.false_and, Bool.false_eq_true, if_false, callsS]
            rcases hf : func s x with ⟨s1, _ | e⟩
            · rw [hf] at hk'
              simp only [hk' x]
              exact loopS_trace keeps hk' h1
            · rfl
          | false =>
            simp only [actS, he, Bool.true_and, if_true, Bool.not_false, Bool.false_and, Bool.false_eq_true, if_false, callsS, hk x]
            rcases hf : func s x with ⟨s1, _ | e⟩
            · rw [hf] at hk'
              exact loopS_trace keeps hk' h1
            · rfl
        · simp only [actS, he, Bool.and_false, Bool.false_eq_true, if_false, hk x]
          exact loopS_trace keeps hk h1

/-- the trace names entities in reach, none twice -/
theorem trace_once {root : α} (hash : ∀ x, G.entity x = true → ∃ k, G.hash x = .key k) : ∀ {n : Nat} {seen : List κ} {queue : List α} {r : List α × Bool},
    trace G kids n seen queue = some r → (∀ x ∈ queue, Reach kids root x) →
      r.1.Nodup ∧ ∀ x ∈ r.1, G.entity x = true ∧ Reach kids root x ∧ ∀ k, G.hash x = .key k → k ∉ seen
  | 0, _, _, _, h, _ => by simp [trace] at h
  | n + 1, _, [], r, h, _ => by
    simp only [trace, Option.some.injEq] at h
    subst h
    simp
  | n + 1, seen, x :: queue, r, h, hq => by
    rw [trace] at h
    split at h
    · cases h
      simp
    · cases hm : mark seen (G.hash x) with
      | none =>
        simp only [hm] at h
        exact trace_once hash h fun y hy => hq y (List.mem_cons_of_mem _ hy)
      | some seen' =>
        simp only [hm, Option.map_eq_some_iff] at h
        obtain ⟨q, h1, rfl⟩ := h
        have hx := hq x List.mem_cons_self
        obtain ⟨g1, g2⟩ := trace_once (root := root) hash h1 (by
          intro y hy
          rcases List.mem_append.1 hy with hy | hy
          · exact hx.snoc (List.mem_reverse.1 hy)
          · exact hq y (List.mem_cons_of_mem _ hy))
        have hsub : ∀ k ∈ seen, k ∈ seen' := by
          intro k hk
          unfold mark at hm
          split at hm
          · cases hm; exact hk
          · split at hm
            · cases hm
            · cases hm; exact List.mem_cons_of_mem _ hk
          · cases hm
        have g3 : ∀ y ∈ q.1, G.entity y = true ∧ Reach kids root y ∧ ∀ k, G.hash y = .key k → k ∉ seen :=
          fun y hy => ⟨(g2 y hy).1, (g2 y hy).2.1, fun k hk hs => (g2 y hy).2.2 k hk (hsub k hs)⟩
        by_cases he : G.entity x = true
        · obtain ⟨k, hk⟩ := hash x he
          rw [hk] at hm
          simp only [mark] at hm
          split at hm
          · cases hm
          · rename_i hs
            cases hm
            simp only [he, if_true]
            refine ⟨List.nodup_cons.2 ⟨fun hmem => (g2 x hmem).2.2 k hk List.mem_cons_self, g1⟩, ?_⟩
            intro y hy
            rcases List.mem_cons.1 hy with rfl | hy
            · refine ⟨he, hx, fun k' hk' => ?_⟩
              rw [hk] at hk'
              cases hk'
              exact hs
            · exact g3 y hy
        · simp only [he, Bool.false_eq_true, if_false]
          exact ⟨g1, g3⟩

end Verif.Traverse

namespace Verif.Value
open Verif.Py Verif.Traverse

/-- C36, with what is left behind: for every object graph and every callback that does not rewire the graph, `recursive_foreach` ends with the state that the callback leaves when it is called
on entities in reach, one after the other and on none twice, up to the first call that raises. These are all entities in reach if no tuple in reach contains a list or a dictionary. If one
does, and no call raised, TypeError is raised after them. -/
theorem C36_state {τ : Type} (m : Mem) (t : τ) (root : V) (applyFirst : Bool) (func : Callback (Mem × τ) V) (keeps : ∀ s x, SameGraph s.1 (func s x).1.1) :
    ∃ (n : Nat) (order : List V), order.Nodup ∧ (∀ x ∈ order, (∃ o, o < m.length ∧ x = .ref o) ∧ Reachable m false root x) ∧
      (NoListInTuple m false root → ∀ o, o < m.length → Reachable m false root (.ref o) → V.ref o ∈ order) ∧
      ∀ n' ≥ n, ∃ e, recursiveForeachS (foreachGraph τ m.length) applyFirst func n' (m, t) root = some ((callsS func (m, t) order).1, e) ∧
        (∀ x, (callsS func (m, t) order).2 = some x → e = some x) ∧
        ((callsS func (m, t) order).2 = none → (NoListInTuple m false root → e = none) ∧ (¬ NoListInTuple m false root → e = some .typeError)) := by
  have hk : ∀ v w, w ∈ kidsForeach m v ↔ Child m false v w := fun v w => mem_kidsForeach
  obtain ⟨n, order, o1, o2, o3⟩ := C36_every_graph m ([] : List V) root applyFirst (fun s x => .ok (s.1, s.2 ++ [x])) (by
    intro s x s' h
    cases h
    exact rfl)
  have hl := fun n => loop_total (G := foreachGraph (List V) m.length) (kids := kidsForeach m) (af := applyFirst) (g := fun s x => (s.1, s.2 ++ [x])) (fun s x h => h) (n := n)
    (s := (m, [])) (seen := []) (queue := [root]) (fun _ => rfl)
  have ht : ∀ n, trace (foreachGraph (List V) m.length) (kidsForeach m) n [] [root] = trace (foreachGraph τ m.length) (kidsForeach m) n [] [root] := by
    have : ∀ n seen queue, trace (foreachGraph (List V) m.length) (kidsForeach m) n seen queue = trace (foreachGraph τ m.length) (kidsForeach m) n seen queue := by
      intro n
      induction n with
      | zero => intros; rfl
      | succ n ih =>
        intro seen queue
        cases queue with
        | nil => rfl
        | cons x queue =>
          simp only [trace, ih]
          rfl
    exact fun n => this n _ _
  obtain ⟨r, hr, hflat⟩ : ∃ r, trace (foreachGraph τ m.length) (kidsForeach m) n [] [root] = some r ∧
      (NoListInTuple m false root ∧ r.2 = false ∧ r.1 = order ∨ ¬ NoListInTuple m false root ∧ r.2 = true) := by
    have h0 := hl n
    rw [ht] at h0
    unfold recursiveForeach at o3
    rcases o3 with ⟨h1, h2, h3⟩ | ⟨h1, h3⟩
    · have h4 := h3 n (Nat.le_refl _)
      rw [h0, calls_log, Option.map_eq_some_iff] at h4
      obtain ⟨r, h5, h6⟩ := h4
      refine ⟨r, h5, .inl ⟨h1, ?_⟩⟩
      split at h6
      · cases h6
      · rename_i h7
        rw [foldl_log] at h6
        simp only [List.nil_append, Except.ok.injEq, Prod.mk.injEq, true_and] at h6
        exact ⟨by simpa using h7, h6⟩
    · have h4 := h3 n (Nat.le_refl _)
      rw [h0, calls_log, Option.map_eq_some_iff] at h4
      obtain ⟨r, h5, h6⟩ := h4
      refine ⟨r, h5, .inr ⟨h1, ?_⟩⟩
      split at h6
      · assumption
      · cases h6
  obtain ⟨g1, g2⟩ := trace_once (root := root) (by
    intro x hx
    obtain ⟨o, -, rfl⟩ := isEntity_iff.1 hx
    exact ⟨_, rfl⟩) hr (by simp [Reach.refl])
  refine ⟨n, r.1, g1, fun x hx => ⟨isEntity_iff.1 (g2 x hx).1, (reach_iff hk).1 (g2 x hx).2.1⟩, ?_, ?_⟩
  · intro hf o ho hreach
    rcases hflat with ⟨-, -, h⟩ | ⟨h, -⟩
    · rw [h]
      rcases o3 with ⟨-, h2, -⟩ | ⟨h1, -⟩
      · exact h2 o ho hreach
      · exact absurd hf h1
    · exact absurd hf h
  · intro n' hn'
    have := loopS_trace (G := foreachGraph τ m.length) (kids := kidsForeach m) (af := applyFirst) (func := func)
      (fun s x h y => by rw [← h y]; exact kidsForeach_congr (keeps s x) y) (s := (m, t)) (fun _ => rfl) (trace_later hn' hr)
    unfold recursiveForeachS
    rw [this]
    rcases hc : callsS func (m, t) r.1 with ⟨s', _ | e⟩
    · refine ⟨if r.2 then some .typeError else none, by simp [endsS], by simp, fun _ => ⟨fun hf => ?_, fun hf => ?_⟩⟩
      · rcases hflat with ⟨-, h, -⟩ | ⟨h, -⟩
        · simp [h]
        · exact absurd hf h
      · rcases hflat with ⟨h, -⟩ | ⟨-, h⟩
        · exact absurd h hf
        · simp [h]
    · exact ⟨some e, by simp [endsS], by simp, by simp⟩

/-- C36: without the state, this is what Model/Traverse.lean says of the loop. -/
theorem C36_agrees {σ κ : Type} [DecidableEq κ] (G : Graph σ V κ) (af : Bool) (func : σ → V → Except PyErr σ) : ∀ (n : Nat) (s : σ) (seen : List κ) (queue : List V),
    loop G af func n s seen queue = (loopS G af (keeping func) n s seen queue).map fun r => match r.2 with
      | none => .ok r.1
      | some e => .error e
  | 0, _, _, _ => rfl
  | _ + 1, _, _, [] => rfl
  | n + 1, s, seen, x :: queue => by
    have hact : ∀ now s, act G now func s x = match (actS G now (keeping func) s x).2 with
        | none => .ok (actS G now (keeping func) s x).1
        | some e => .error e := by
      intro now s
      unfold act actS keeping
      split
      · cases func s x <;> rfl
      · rfl
    rw [loop, loopS]
    split
    · rfl
    · cases mark seen (G.hash x) with
      | none => exact C36_agrees G af func n s seen queue
      | some seen' =>
        simp only [hact]
        rcases actS G af (keeping func) s x with ⟨s1, _ | e⟩
        · simp only []
          rcases actS G (!af) (keeping func) s1 x with ⟨s2, _ | e⟩
          · simp only []
            exact C36_agrees G af func n s2 seen' _
          · rfl
        · rfl

theorem callsS_ok {σ : Type} {func : σ → V → Except PyErr σ} : ∀ {l : List V} {s s' : σ}, calls func s l = .ok s' → callsS (keeping func) s l = (s', none)
  | [], _, _, h => by cases h; rfl
  | x :: l, s, s', h => by
    simp only [calls] at h
    simp only [callsS, keeping]
    split at h
    · rename_i h1
      rw [h1]
      exact callsS_ok h
    · cases h

/-- C38, for every object graph: `set_uuids` ends; it returns normally exactly if no tuple in reach contains a list or a dictionary, and raises TypeError otherwise. In either case what it has done is this: some
entities in reach (all of them if it returns normally) have gained one id under the scope if they had none, each from its own draw; every other entity is as it was, and no draw was made for another. -/
theorem C38_state (scope : String) (gen : Nat → String) (m : Mem) (c : Nat) (root : V) :
    ∃ (n : Nat) (m' : Mem) (c' : Nat) (draw : Nat → Nat) (e : Option PyErr) (visited : List V),
      (∀ n' ≥ n, setUuidsS scope gen n' m c root = some ((m', c'), e)) ∧
      (NoListInTuple m false root → e = none) ∧ (¬ NoListInTuple m false root → e = some .typeError) ∧
      (∀ x ∈ visited, (∃ o, o < m.length ∧ x = .ref o) ∧ Reachable m false root x) ∧
      (e = none → ∀ o, o < m.length → Reachable m false root (.ref o) → V.ref o ∈ visited) ∧
      m'.length = m.length ∧ c ≤ c' ∧
      (∀ o x, m[o]? = some x → .ref o ∈ visited → x.uids = [] → c ≤ draw o ∧ draw o < c' ∧ m'[o]? = some { x with uids := [(scope, gen (draw o))] }) ∧
      (∀ o x, m[o]? = some x → (.ref o ∉ visited ∨ x.uids ≠ []) → m'[o]? = some x) ∧
      (∀ o1 x1 o2 x2, m[o1]? = some x1 → .ref o1 ∈ visited → x1.uids = [] → m[o2]? = some x2 → .ref o2 ∈ visited → x2.uids = [] → draw o1 = draw o2 → o1 = o2) := by
  obtain ⟨n, order, h1, h2, h3, h4⟩ := C36_state m c root false (keeping (assignUid scope gen)) (by
    intro s x
    unfold keeping
    split
    · rename_i h
      exact assignUid_sameGraph h
    · exact rfl)
  obtain ⟨m', c', draw, g1, g2, g3, g4, g5, g6, -⟩ := assign_calls scope gen order m c (fun x hx => (h2 x hx).1)
  have hc := callsS_ok g1
  have key : ∀ n' ≥ n, setUuidsS scope gen n' m c root = some ((m', c'), open Classical in if NoListInTuple m false root then none else some .typeError) := by
    intro n' hn'
    obtain ⟨e, k1, -, k3⟩ := h4 n' hn'
    rw [hc] at k1 k3
    unfold setUuidsS
    rw [k1]
    split
    · rename_i hf
      rw [(k3 rfl).1 hf]
    · rename_i hf
      rw [(k3 rfl).2 hf]
  refine ⟨n, m', c', draw, _, order, key, fun hf => if_pos hf, fun hf => if_neg hf, h2, ?_, ?_, g3, g4, g5, g6⟩
  · intro he
    apply h3
    apply Classical.byContradiction
    intro hf
    rw [if_neg hf] at he
    cases he
  · have := congrArg List.length g2
    simpa using this

/-- a TypeError leaves ids behind: the process after the tuple in the list has got one, that before it has not -/
example : setUuidsS "id" (fun _ => "x") 9 [⟨.processRun, [], []⟩, ⟨.processRun, [], []⟩] 0 (.list [.ref 0, .tuple [.list []], .ref 1]) =
    some (([⟨.processRun, [], []⟩, ⟨.processRun, [("id", "x")], []⟩], 1), some .typeError) := by decide +kernel

end Verif.Value
