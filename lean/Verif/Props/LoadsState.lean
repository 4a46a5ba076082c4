import Verif.Model.LoadsState
import Verif.Props.DumpsState
/-!
# C44: what reading changes, whether or not it raises
-/

namespace Verif.Substitute
open Verif.Py Verif.Value Verif.Schema Verif.Json Verif.Traverse

/-- forget the state at the exception -/
def drop {σ α : Type} (r : σ × Except PyErr α) : Except PyErr (α × σ) := match r with
  | (s, .ok a) => .ok (a, s)
  | (_, .error e) => .error e

section
variable {σ : Type} {hook : List (String × V) → σ → Except PyErr (V × σ)}

mutual
theorem decS_agrees : ∀ (v : V) (s : σ), dec hook v s = drop (decS hook v s)
  | .list l, s => by
    simp only [dec, decS, decsS_agrees l s]
    rcases decsS hook l s with ⟨s', e | l'⟩ <;> rfl
  | .dict ks vs, s => by
    simp only [dec, decS]
    cases strings ks with
    | none => rfl
    | some names =>
      simp only [decsS_agrees vs s]
      rcases decsS hook vs s with ⟨s', e | vs'⟩
      · rfl
      · simp only [drop]
        rcases hook (names.zip vs') s' with e | ⟨w, s''⟩ <;> rfl
  | .tuple _, s => by simp only [dec, decS, drop]
  | .obj _ _ _, s => by simp only [dec, decS, drop]
  | .link _ _, s => by simp only [dec, decS, drop]
  | .ref _, s => by simp only [dec, decS, drop]
  | .none, s => by simp only [dec, decS, drop]
  | .bool _, s => by simp only [dec, decS, drop]
  | .int _, s => by simp only [dec, decS, drop]
  | .float _, s => by simp only [dec, decS, drop]
  | .str _, s => by simp only [dec, decS, drop]
theorem decsS_agrees : ∀ (l : List V) (s : σ), decs hook l s = drop (decsS hook l s)
  | [], s => by simp only [decs, decsS, drop]
  | v :: vs, s => by
    simp only [decs, decsS, decS_agrees v s]
    rcases decS hook v s with ⟨s', e | w⟩
    · rfl
    · simp only [drop, decsS_agrees vs s']
      rcases decsS hook vs s' with ⟨s'', e | ws⟩ <;> rfl
end
end

section
variable {env : Env} {sub : Bool} {m0 : Mem}

mutual
theorem decS_above : ∀ (v : V), noRef v → ∀ st : Loading, Above m0 st → Above m0 (decS (loadAndIndex env sub) v st).1
  | .list l, hn, st, hs => by
    have := decsS_above l (by simpa only [noRef] using hn) st hs
    simp only [decS]
    revert this
    rcases decsS (loadAndIndex env sub) l st with ⟨s', e | l'⟩ <;> exact id
  | .dict ks vs, hn, st, hs => by
    have hv : noRefs vs := by simp only [noRef] at hn; exact hn
    have h1 := decsS_above vs hv st hs
    simp only [decS]
    cases hk : strings ks with
    | none => exact hs
    | some names =>
      simp only
      cases hd : dec (loadAndIndex env sub) (.dict ks vs) st with
      | ok r =>
        obtain ⟨w, st'⟩ := r
        have h2 := (dec_above (.dict ks vs) hn st st' w hd hs).1
        rw [decS_agrees] at hd
        simp only [decS, hk] at hd
        revert hd
        rcases decsS (loadAndIndex env sub) vs st with ⟨s', e | vs'⟩
        · exact fun hd => by cases hd
        · simp only
          rcases loadAndIndex env sub (names.zip vs') s' with e | ⟨w', s''⟩
          · exact fun hd => by cases hd
          · intro hd
            cases hd
            exact h2
      | error x =>
        rw [decS_agrees] at hd
        simp only [decS, hk] at hd
        revert hd h1
        rcases decsS (loadAndIndex env sub) vs st with ⟨s', e | vs'⟩
        · exact fun h1 _ => h1
        · simp only
          rcases loadAndIndex env sub (names.zip vs') s' with e | ⟨w', s''⟩
          · exact fun h1 _ => h1
          · exact fun _ hd => by cases hd
  | .tuple _, _, st, hs => by simpa only [decS] using hs
  | .obj _ _ _, _, st, hs => by simpa only [decS] using hs
  | .link _ _, _, st, hs => by simpa only [decS] using hs
  | .ref _, _, st, hs => by simpa only [decS] using hs
  | .none, _, st, hs => by simpa only [decS] using hs
  | .bool _, _, st, hs => by simpa only [decS] using hs
  | .int _, _, st, hs => by simpa only [decS] using hs
  | .float _, _, st, hs => by simpa only [decS] using hs
  | .str _, _, st, hs => by simpa only [decS] using hs
theorem decsS_above : ∀ (l : List V), noRefs l → ∀ st : Loading, Above m0 st → Above m0 (decsS (loadAndIndex env sub) l st).1
  | [], _, st, hs => by simpa only [decsS] using hs
  | v :: vs, hn, st, hs => by
    simp only [noRefs] at hn
    have h1 := decS_above v hn.1 st hs
    simp only [decsS]
    revert h1
    rcases decS (loadAndIndex env sub) v st with ⟨s', e | w⟩
    · exact id
    · intro h1
      have h2 := decsS_above vs hn.2 s' h1
      simp only
      revert h2
      rcases decsS (loadAndIndex env sub) vs s' with ⟨s'', e | ws⟩ <;> exact id
end
end

/-- **C44 (state)**: the account with the memory at the exception agrees with the one without. -/
theorem C44_loads_agrees (env : Env) (m : Mem) (t : V) : loads env m t = forget (loadsS env m t) := by
  simp only [loads, loadsS, decS_agrees]
  rcases decS (loadAndIndex env true) t { mem := m, index := [] } with ⟨st, e | w⟩
  · rfl
  · simp only [drop]
    cases w <;> try rfl
    rename_i ks vs
    simp only
    cases (strings ks).bind (fun names => Dict.get? (names.zip vs) "object") <;> rfl

/-- **C44 (state)**: whether it returns or raises, `loads` leaves all entities that exist unchanged. -/
theorem C44_loads_state (env : Env) (m : Mem) (t : V) (ht : noRef t) : Extends m (loadsS env m t).1 := by
  have h := (decS_above (env := env) (sub := true) t ht _ (above_nil m)).extends
  unfold loadsS
  revert h
  rcases decS (loadAndIndex env true) t { mem := m, index := [] } with ⟨st, e | w⟩
  · exact id
  · cases w <;> try exact id
    rename_i ks vs
    simp only
    cases (strings ks).bind (fun names => Dict.get? (names.zip vs) "object") <;> exact id

/-- a text with a process, then something of an unknown type: the process has been made, TypeError is raised -/
example : (let r := loadsS plainEnv unnamed (mkDict [("context", .list [mkDict [("type", .str "process_run"), ("name", .str "q")], mkDict [("type", .str "unknown")]]), ("object", .none)])
    decide (r.1.take 2 = unnamed ∧ r.1.length = 3) && match r.2 with
      | .error e => decide (e = .typeError)
      | .ok _ => false) = true := by decide +kernel

/-- the same if the process is inside the dictionary of an unknown type: what was read inside it stays -/
example : (let r := loadsS plainEnv unnamed (mkDict [("type", .str "unknown"), ("x", mkDict [("type", .str "process_run"), ("name", .str "q")])])
    decide (r.1.take 2 = unnamed ∧ r.1.length = 3) && match r.2 with
      | .error e => decide (e = .typeError)
      | .ok _ => false) = true := by decide +kernel

end Verif.Substitute
