import Verif.Model.DumpsState
import Verif.Props.VisitState
import Verif.Props.Dumps
/-!
# C44: what writing changes, whether or not it raises
-/

namespace Verif.Traverse
open Verif.Py

variable {σ α κ : Type} [DecidableEq κ]

theorem loopS_mono {G : Graph σ α κ} {af : Bool} {func : Callback σ α} : ∀ {n : Nat} {s : σ} {seen : List κ} {queue : List α} {r : σ × Option PyErr}, loopS G af func n s seen queue = some r →
    ∀ k, loopS G af func (n + k) s seen queue = some r := by
  intro n
  induction n with
  | zero => intro s seen queue r h; cases h
  | succ n ih =>
    intro s seen queue r h k
    rw [Nat.succ_add]
    cases queue with
    | nil => exact h
    | cons x queue =>
      simp only [loopS] at h ⊢
      split
      · rename_i hr
        rw [if_pos hr] at h
        exact h
      · rename_i hr
        rw [if_neg hr] at h
        revert h
        cases mark seen (G.hash x) with
        | none => exact fun h => ih h k
        | some seen' =>
          simp only
          rcases actS G af func s x with ⟨s1, _ | e⟩
          · simp only
            rcases actS G (!af) func s1 x with ⟨s2, _ | e⟩
            · exact fun h => ih h k
            · exact id
          · exact id

end Verif.Traverse

namespace Verif.Substitute
open Verif.Py Verif.Value Verif.Schema Verif.Json Verif.Traverse

/-- forget the memory at the exception -/
def forget (r : Mem × Except PyErr V) : Except PyErr (V × Mem) := match r with
  | (m, .ok t) => .ok (t, m)
  | (_, .error e) => .error e

theorem setUuidsS_agrees (scope : String) (gen : Nat → String) (n : Nat) (m : Mem) (drawn : Nat) (obj : V) :
    setUuids scope gen n m drawn obj = (setUuidsS scope gen n m drawn obj).map fun r => match r.2 with
      | none => .ok r.1
      | some e => .error e := C36_agrees _ _ _ _ _ _ _

/-- **C44 (state)**: the accounts with the memory at the exception agree with those without. -/
theorem C44_state_agrees (env : Env) (scope : String) (gen : Nat → String) (n : Nat) (m : Mem) (drawn : Nat) (obj : V) :
    dumps env scope gen n m drawn obj = (dumpsS env scope gen n m drawn obj).map forget ∧
    thinDumps env scope gen n m drawn obj = (thinDumpsS env scope gen n m drawn obj).map forget := by
  constructor
  · simp only [dumps, flatten, setUuidsS_agrees, dumpsS]
    rcases setUuidsS scope gen n m drawn (mkDict [("object", obj)]) with _ | ⟨⟨m1, c⟩, _ | e⟩
    · rfl
    · simp only [Option.map_some, writeAllS]
      rcases flattenSet env n m1 (mkDict [("object", obj)]) with _ | e | ⟨l, m2⟩
      · rfl
      · rfl
      · simp only
        rcases writeContext env m2 (mkDict [("object", obj)]) l with e | ⟨t, m3⟩ <;> rfl
    · rfl
  · simp only [thinDumps, setUuidsS_agrees, thinDumpsS]
    rcases setUuidsS scope gen n m drawn obj with _ | ⟨⟨m1, c⟩, _ | e⟩
    · rfl
    · simp only [Option.map_some, writeThinS]
      rcases substituteLinks env none true m1 obj with e | ⟨res, m2⟩
      · rfl
      · simp only
        rcases rawDumps m2 res with e | t <;> rfl
    · rfl

theorem setUuidsS_gains {scope : String} {gen : Nat → String} {n : Nat} {m : Mem} {drawn : Nat} {root : V} {m' : Mem} {c : Nat} {e : Option PyErr}
    (h : setUuidsS scope gen n m drawn root = some ((m', c), e)) :
    ∀ (o : Nat) (x : EObj), m[o]? = some x → ∃ y, m'[o]? = some y ∧ GainsId scope gen drawn m root o x y := by
  obtain ⟨n0, m1, c1, draw, e1, visited, h1, _, _, hv, _, _, _, hg, hs, _⟩ := C38_state scope gen m drawn root
  have h2 := loopS_mono h n0
  have h3 := h1 (n + n0) (by omega)
  unfold setUuidsS recursiveForeachS at h3
  rw [h2] at h3
  cases h3
  intro o x hx
  by_cases hc : V.ref o ∈ visited ∧ x.uids = []
  · obtain ⟨d1, _, d3⟩ := hg o x hx hc.1 hc.2
    exact ⟨_, d3, .inr ⟨(hv _ hc.1).2, hc.2, draw o, d1, rfl⟩⟩
  · exact ⟨x, hs o x hx (by by_cases h : V.ref o ∈ visited <;> simp_all), .inl rfl⟩

theorem writeAllS_extends {env : Env} {n : Nat} {m : Mem} {obj : V} {m' : Mem} {r : Except PyErr V} (h : writeAllS env n m obj = some (m', r)) : Extends m m' := by
  unfold writeAllS at h
  split at h
  · cases h
  · cases h; exact ⟨[], by simp⟩
  · rename_i l m1 hf
    have e1 := flattenSet_extends hf
    split at h
    · cases h; exact e1
    · rename_i t m2 hw
      cases h
      refine e1.trans ?_
      unfold writeContext at hw
      split at hw
      · cases hw
      · rename_i ks vs m3 h3
        split at hw <;> cases hw
        exact substitute_extends h3
      · cases hw

theorem writeThinS_extends {env : Env} {m : Mem} {obj : V} : Extends m (writeThinS env m obj).1 := by
  unfold writeThinS
  split
  · exact ⟨[], by simp⟩
  · rename_i res m1 h
    split <;> exact substitute_extends h

theorem reach_object {m : Mem} {obj w : V} (hw : Reachable m false (mkDict [("object", obj)]) w) : w = mkDict [("object", obj)] ∨ w = .str "object" ∨ Reachable m false obj w := by
  induction hw with
  | refl => exact .inl rfl
  | step hw hc ih =>
    rcases ih with rfl | rfl | ih
    · right
      rw [← mem_kidsForeach] at hc
      simp only [mkDict, kidsForeach, List.map_cons, List.map_nil] at hc
      simp at hc
      rcases hc with rfl | rfl
      · exact .inl rfl
      · exact .inr (.refl _)
    · rw [← mem_kidsForeach] at hc
      simp [kidsForeach] at hc
    · exact .inr (.inr (.step ih hc))

/-- **C44 (state)**: whether they return or raise, `dumps(obj)` and `thin_dumps(obj)` have done to the entities there were just what `set_uuids` does (C38), also if it is that which raises. -/
theorem C44_state_exact (env : Env) (scope : String) (gen : Nat → String) (n : Nat) (m : Mem) (drawn : Nat) (obj : V) (m' : Mem) (r : Except PyErr V) :
    (dumpsS env scope gen n m drawn obj = some (m', r) → ∃ m1 c e, setUuidsS scope gen n m drawn (mkDict [("object", obj)]) = some ((m1, c), e) ∧ Extends m1 m' ∧
      ∀ x, e = some x → r = .error x ∧ m' = m1) ∧
    (thinDumpsS env scope gen n m drawn obj = some (m', r) → ∃ m1 c e, setUuidsS scope gen n m drawn obj = some ((m1, c), e) ∧ Extends m1 m' ∧
      ∀ x, e = some x → r = .error x ∧ m' = m1) := by
  constructor
  · intro h
    unfold dumpsS at h
    split at h
    · cases h
    · rename_i m1 c e hu
      cases h
      exact ⟨_, _, _, hu, ⟨[], by simp⟩, fun x hx => by cases hx; exact ⟨rfl, rfl⟩⟩
    · rename_i m1 c hu
      exact ⟨_, _, _, hu, writeAllS_extends h, fun x hx => by cases hx⟩
  · intro h
    unfold thinDumpsS at h
    split at h
    · cases h
    · rename_i m1 c e hu
      cases h
      exact ⟨_, _, _, hu, ⟨[], by simp⟩, fun x hx => by cases hx; exact ⟨rfl, rfl⟩⟩
    · rename_i m1 c hu
      simp only [Option.some.injEq] at h
      refine ⟨_, _, _, hu, ?_, fun x hx => by cases hx⟩
      have := writeThinS_extends (env := env) (m := m1) (obj := obj)
      rwa [h] at this

/-- what may have happened to the entities there were before -/
def OnlyIds (scope : String) (gen : Nat → String) (drawn : Nat) (obj : V) (m m' : Mem) : Prop :=
  ∀ (o : Nat) (x : EObj), m[o]? = some x → ∃ y, m'[o]? = some y ∧ y.cls = x.cls ∧ y.fields = x.fields ∧
    (y.uids = x.uids ∨ (Reachable m false obj (.ref o) ∧ x.uids = [] ∧ ∃ k, drawn ≤ k ∧ y.uids = [(scope, gen k)]))

/-- **C44 (state)**: whether `dumps(obj)` returns or raises, every entity there was before is still there, with the class, the fields and the ids it had, except that an entity in reach of `obj`
that had no id may have gained one under the scope of the encoder. -/
theorem C44_dumps_state (env : Env) (scope : String) (gen : Nat → String) (n : Nat) (m : Mem) (drawn : Nat) (obj : V) (m' : Mem) (r : Except PyErr V)
    (h : dumpsS env scope gen n m drawn obj = some (m', r)) : OnlyIds scope gen drawn obj m m' := by
  unfold dumpsS at h
  have key : ∃ m1 c e, setUuidsS scope gen n m drawn (mkDict [("object", obj)]) = some ((m1, c), e) ∧ Extends m1 m' := by
    split at h
    · cases h
    · rename_i m1 c e hu
      cases h
      exact ⟨_, _, _, hu, [], by simp⟩
    · rename_i m1 c hu
      exact ⟨_, _, _, hu, writeAllS_extends h⟩
  obtain ⟨m1, c, e, hu, he⟩ := key
  intro o x hx
  obtain ⟨y, hy, hgain⟩ := setUuidsS_gains hu o x hx
  refine ⟨y, extends_get he hy, ?_⟩
  rcases hgain with rfl | ⟨hr, hn, k, hk, rfl⟩
  · exact ⟨rfl, rfl, .inl rfl⟩
  · refine ⟨rfl, rfl, .inr ⟨?_, hn, k, hk, rfl⟩⟩
    rcases reach_object hr with h | h | h
    · simp [mkDict] at h
    · cases h
    · exact h

/-- **C44 (state)**: the same for `thin_dumps`. -/
theorem C44_thin_state (env : Env) (scope : String) (gen : Nat → String) (n : Nat) (m : Mem) (drawn : Nat) (obj : V) (m' : Mem) (r : Except PyErr V)
    (h : thinDumpsS env scope gen n m drawn obj = some (m', r)) : OnlyIds scope gen drawn obj m m' := by
  unfold thinDumpsS at h
  have key : ∃ m1 c e, setUuidsS scope gen n m drawn obj = some ((m1, c), e) ∧ Extends m1 m' := by
    split at h
    · cases h
    · rename_i m1 c e hu
      cases h
      exact ⟨_, _, _, hu, [], by simp⟩
    · rename_i m1 c hu
      simp only [Option.some.injEq] at h
      refine ⟨_, _, _, hu, ?_⟩
      have := writeThinS_extends (env := env) (m := m1) (obj := obj)
      rwa [h] at this
  obtain ⟨m1, c, e, hu, he⟩ := key
  intro o x hx
  obtain ⟨y, hy, hgain⟩ := setUuidsS_gains hu o x hx
  refine ⟨y, extends_get he hy, ?_⟩
  rcases hgain with rfl | ⟨hr, hn, k, hk, rfl⟩
  · exact ⟨rfl, rfl, .inl rfl⟩
  · exact ⟨rfl, rfl, .inr ⟨hr, hn, k, hk, rfl⟩⟩

/-- **C44 (state)**: ids that were given stay if writing raises. A dictionary with a link for a key cannot be written; by then the process has got its id. -/
theorem C44_ids_stay : ∃ m', dumpsS plainEnv "auto" (fun _ => "x") 50 unnamed 0 (.list [.ref 1, .dict [.link "my" "m"] [.int 1]]) = some (m', .error .typeError) ∧
    dumps plainEnv "auto" (fun _ => "x") 50 unnamed 0 (.list [.ref 1, .dict [.link "my" "m"] [.int 1]]) = some (.error .typeError) ∧
    unnamed[0]?.map EObj.uids = some [] ∧ m'[0]?.map EObj.uids = some [("auto", "x")] := by
  have h : (match dumpsS plainEnv "auto" (fun _ => "x") 50 unnamed 0 (.list [.ref 1, .dict [.link "my" "m"] [.int 1]]) with
    | some (m', .error e) => decide (e = .typeError ∧ m'[0]?.map EObj.uids = some [("auto", "x")])
    | _ => false) = true := by decide +kernel
  split at h
  · rename_i m' e he
    obtain ⟨rfl, h2⟩ := of_decide_eq_true h
    exact ⟨m', he, by rw [(C44_state_agrees ..).1, he]; rfl, rfl, h2⟩
  · cases h

end Verif.Substitute
