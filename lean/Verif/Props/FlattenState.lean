import Verif.Model.FlattenState
import Verif.Props.DumpsState
/-!
# C39: what `flatten` changes, whether or not it raises
-/

namespace Verif.Substitute
open Verif.Py Verif.Value Verif.Schema Verif.Json Verif.Traverse

/-- forget the memory at the exception -/
def forgetList (r : Mem × Except PyErr (List V)) : Except PyErr (List V × Mem) := match r with
  | (m, .ok l) => .ok (l, m)
  | (_, .error e) => .error e

theorem flattenSetS_agrees (env : Env) (n : Nat) (m : Mem) (obj : V) : flattenSet env n m obj = (flattenSetS env n m obj).map forgetList := by
  unfold flattenSetS
  rcases flattenSet env n m obj with _ | e | ⟨l, m'⟩ <;> rfl

theorem flattenSetS_extends {env : Env} {n : Nat} {m : Mem} {obj : V} {m' : Mem} {r : Except PyErr (List V)} (h : flattenSetS env n m obj = some (m', r)) : Extends m m' := by
  unfold flattenSetS at h
  split at h
  · cases h
  · cases h; exact ⟨[], by simp⟩
  · rename_i l m1 hf
    cases h
    exact flattenSet_extends hf

/-- **C39 (state)**: the account with the memory at the exception agrees with the one without. -/
theorem C39_state_agrees (env : Env) (scope : Option String) (gen : Nat → String) (n : Nat) (m : Mem) (drawn : Nat) (obj : V) :
    flatten env scope gen n m drawn obj = (flattenS env scope gen n m drawn obj).map forgetList := by
  cases scope with
  | none => exact flattenSetS_agrees env n m obj
  | some s =>
    simp only [flatten, flattenS, setUuidsS_agrees]
    rcases setUuidsS s gen n m drawn obj with _ | ⟨⟨m1, c⟩, _ | e⟩
    · rfl
    · exact flattenSetS_agrees env n m1 obj
    · rfl

/-- **C39 (state)**: whether `flatten(obj)` returns or raises, without a scope no entity there was is changed at all. -/
theorem C39_state (env : Env) (gen : Nat → String) (n : Nat) (m : Mem) (drawn : Nat) (obj : V) (m' : Mem) (r : Except PyErr (List V))
    (h : flattenS env none gen n m drawn obj = some (m', r)) : ∀ (o : Nat) (x : EObj), m[o]? = some x → m'[o]? = some x :=
  fun _ _ hx => extends_get (flattenSetS_extends h) hx

/-- **C39 (state)**: with a scope, it has done to them just what `set_uuids` does (C38), also if it is that which raises. -/
theorem C39_scope_state_exact (env : Env) (s : String) (gen : Nat → String) (n : Nat) (m : Mem) (drawn : Nat) (obj : V) (m' : Mem) (r : Except PyErr (List V))
    (h : flattenS env (some s) gen n m drawn obj = some (m', r)) :
    ∃ m1 c e, setUuidsS s gen n m drawn obj = some ((m1, c), e) ∧ Extends m1 m' ∧ ∀ x, e = some x → r = .error x ∧ m' = m1 := by
  simp only [flattenS] at h
  split at h
  · cases h
  · rename_i m1 c e hu
    cases h
    exact ⟨_, _, _, hu, ⟨[], by simp⟩, fun x hx => by cases hx; exact ⟨rfl, rfl⟩⟩
  · rename_i m1 c hu
    exact ⟨_, _, _, hu, flattenSetS_extends h, fun x hx => by cases hx⟩

/-- **C39 (state)**: the entities there were keep class, fields and ids, except that one in reach of `obj` without any id may have gained one under the scope given. -/
theorem C39_scope_state (env : Env) (s : String) (gen : Nat → String) (n : Nat) (m : Mem) (drawn : Nat) (obj : V) (m' : Mem) (r : Except PyErr (List V))
    (h : flattenS env (some s) gen n m drawn obj = some (m', r)) : OnlyIds s gen drawn obj m m' := by
  obtain ⟨m1, c, e, hu, he, _⟩ := C39_scope_state_exact env s gen n m drawn obj m' r h
  intro o x hx
  obtain ⟨y, hy, hgain⟩ := setUuidsS_gains hu o x hx
  refine ⟨y, extends_get he hy, ?_⟩
  rcases hgain with rfl | ⟨hr, hn, k, hk, rfl⟩
  · exact ⟨rfl, rfl, .inl rfl⟩
  · exact ⟨rfl, rfl, .inr ⟨hr, hn, k, hk, rfl⟩⟩

/-- without a scope an entity without id is a ValueError -/
example : (match flattenS plainEnv none (fun _ => "x") 50 unnamed 0 (.ref 0) with
    | some (m', .error e) => decide (e = .valueError ∧ m' = unnamed)
    | _ => false) = true := by decide +kernel

/-- with a scope the process gets an id, its material keeps the one it has, and one copy of each is made -/
example : (match flattenS plainEnv (some "auto") (fun _ => "x") 50 unnamed 0 (.ref 0) with
    | some (m', .ok l) => decide ((m'.take 2).map EObj.uids = [[("auto", "x")], [("my", "m")]] ∧ m'.length = 4 ∧ l.length = 2)
    | _ => false) = true := by decide +kernel

/-- **C39 (state)**: ids that were given stay if `flatten` raises: here at a tuple with a list in it, after the process has got its id. -/
theorem C39_ids_stay : ∃ m', flattenS plainEnv (some "auto") (fun _ => "x") 50 unnamed 0 (.list [.tuple [.list []], .ref 0]) = some (m', .error .typeError) ∧
    unnamed[0]?.map EObj.uids = some [] ∧ m'[0]?.map EObj.uids = some [("auto", "x")] := by
  have h : (match flattenS plainEnv (some "auto") (fun _ => "x") 50 unnamed 0 (.list [.tuple [.list []], .ref 0]) with
    | some (m', .error e) => decide (e = .typeError ∧ m'[0]?.map EObj.uids = some [("auto", "x")])
    | _ => false) = true := by decide +kernel
  split at h
  · rename_i m' e he
    obtain ⟨rfl, h2⟩ := of_decide_eq_true h
    exact ⟨m', he, rfl, h2⟩
  · cases h

end Verif.Substitute
