import Verif.Model.InplaceState
import Verif.Props.InplaceNeeds
import Verif.Props.InplaceEx
/-!
# C60: what is left behind if resolving links raises
-/

namespace Verif.Inplace
open Verif.Py Verif.Value Verif.Schema Verif.Json Verif.Substitute

/-- forget the memory at the exception -/
def forget {α : Type} (r : SubSt × Except PyErr α) : Except PyErr (α × SubSt) := match r with
  | (st, .ok a) => .ok (a, st)
  | (_, .error e) => .error e

/-- the same, if nothing is returned -/
def forget' (r : SubSt × Option PyErr) : Except PyErr SubSt := match r with
  | (st, none) => .ok st
  | (_, some e) => .error e

section
variable {env : Env} {same : Mem → Nat → Nat → Bool} {repl : Mem → V → Except PyErr (Option V)} {expand : Nat → SubSt → Except PyErr SubSt} {expandS : Nat → SubSt → SubSt × Option PyErr}

theorem leafS_agrees (h : ∀ o st, expand o st = forget' (expandS o st)) (v : V) (st : SubSt) : leaf repl expand v st = forget (leafS repl expandS v st) := by
  unfold leaf leafS
  cases recall v st with
  | some w => rfl
  | none =>
    simp only
    cases repl st.mem v with
    | error e => rfl
    | ok r =>
      simp only
      generalize r.getD v = u
      unfold into
      cases u <;> try rfl
      simp only [h]
      rename_i o
      rcases expandS o (remember v (.ref o) st) with ⟨st', _ | e⟩ <;> rfl

mutual
theorem subIS_agrees (h : ∀ o st, expand o st = forget' (expandS o st)) : ∀ (v : V) (st : SubSt), subI env repl expand v st = forget (subIS env repl expandS v st)
  | .link s i, st => by simp only [subI, subIS]; exact leafS_agrees h _ _
  | .ref o, st => by simp only [subI, subIS]; exact leafS_agrees h _ _
  | .list l, st => by
    simp only [subI, subIS, subIsS_agrees h l st]
    rcases subIsS env repl expandS l st with ⟨st', e | l'⟩ <;> rfl
  | .tuple l, st => by
    simp only [subI, subIS]
    split
    · rfl
    · cases recall (.tuple l) st with
      | some w => rfl
      | none =>
        simp only [subIsS_agrees h l]
        rcases subIsS env repl expandS l (remember (.tuple l) (.tuple l) st) with ⟨st', e | l'⟩ <;> rfl
  | .dict ks vs, st => by
    simp only [subI, subIS, subIsS_agrees h ks st]
    rcases subIsS env repl expandS ks st with ⟨st1, e | ks'⟩
    · rfl
    · simp only [forget, subIsS_agrees h vs st1]
      rcases subIsS env repl expandS vs st1 with ⟨st2, e | vs'⟩ <;> rfl
  | .obj t ns vs, st => by
    simp only [subI, subIS, subIsS_agrees h vs st]
    rcases subIsS env repl expandS vs st with ⟨st1, e | vs'⟩
    · rfl
    · simp only [forget]
      cases setObj env st1.mem t ns vs vs' <;> rfl
  | .none, st => by simp only [subI, subIS, forget]
  | .bool b, st => by simp only [subI, subIS, forget]
  | .int i, st => by simp only [subI, subIS, forget]
  | .float q, st => by simp only [subI, subIS, forget]
  | .str s, st => by simp only [subI, subIS, forget]
theorem subIsS_agrees (h : ∀ o st, expand o st = forget' (expandS o st)) : ∀ (l : List V) (st : SubSt), subIs env repl expand l st = forget (subIsS env repl expandS l st)
  | [], st => by simp only [subIs, subIsS, forget]
  | v :: vs, st => by
    simp only [subIs, subIsS, subIS_agrees h v st]
    rcases subIS env repl expandS v st with ⟨st1, e | w⟩
    · rfl
    · simp only [forget, subIsS_agrees h vs st1]
      rcases subIsS env repl expandS vs st1 with ⟨st2, e | ws⟩ <;> rfl
end

theorem setFieldsN_agrees (h : ∀ o st, expand o st = forget' (expandS o st)) {o : Nat} {c : ECls} : ∀ (fs : List (String × V)) (st : SubSt),
    setFields env same repl expand o c fs st = forget' (setFieldsN env same repl expandS o c fs st) := by
  intro fs
  induction fs with
  | nil => intro st; rfl
  | cons f fs ih =>
    obtain ⟨a, v⟩ := f
    intro st
    simp only [setFields, setFieldsN, subIS_agrees h v st]
    rcases subIS env repl expandS v st with ⟨st1, e | w⟩
    · rfl
    · simp only [forget]
      split
      · exact ih st1
      · cases setAttr env same st1.mem o c a w with
        | error e => rfl
        | ok m => exact ih _
end

theorem expandIS_agrees (env : Env) (same : Mem → Nat → Nat → Bool) (repl : Mem → V → Except PyErr (Option V)) : ∀ (k o : Nat) (st : SubSt),
    expandI env same repl k o st = forget' (expandIS env same repl k o st) := by
  intro k
  induction k with
  | zero => intro o st; rfl
  | succ k ih =>
    intro o st
    simp only [expandI, expandIS]
    cases st.mem[o]? with
    | none => rfl
    | some x => exact setFieldsN_agrees ih _ _

/-- **C60 (state)**: the account with the memory at the exception agrees with the one without. -/
theorem C60_state_agrees (env : Env) (same : Mem → Nat → Nat → Bool) (index : Dict (String × String) Nat) (k : Nat) (m : Mem) (v : V) :
    objectsInplace env same index k m v = match objectsInplaceS env same index k m v with
      | (m', .ok w) => .ok (w, m')
      | (_, .error e) => .error e := by
  simp only [objectsInplace, substituteI, objectsInplaceS, subIS_agrees (expandIS_agrees env same (objectRepl index) k) v]
  rcases subIS env (objectRepl index) (expandIS env same (objectRepl index) k) v { visited := [], mem := m } with ⟨st', e | w⟩ <;> rfl

section
variable {env : Env} {same : Mem → Nat → Nat → Bool} {repl : Mem → V → Except PyErr (Option V)} {expandS : Nat → SubSt → SubSt × Option PyErr}

theorem leafS_skel (h : ∀ o st, (expandS o st).1.mem.map skel = st.mem.map skel) (v : V) (st : SubSt) : (leafS repl expandS v st).1.mem.map skel = st.mem.map skel := by
  unfold leafS
  cases recall v st with
  | some w => rfl
  | none =>
    simp only
    cases repl st.mem v with
    | error e => rfl
    | ok r =>
      simp only
      generalize r.getD v = u
      cases u <;> simp only [remember_mem]
      rename_i o
      have := h o (remember v (.ref o) st)
      rw [remember_mem] at this
      revert this
      rcases expandS o (remember v (.ref o) st) with ⟨st', _ | e⟩ <;> exact id

mutual
theorem subIS_skel (h : ∀ o st, (expandS o st).1.mem.map skel = st.mem.map skel) : ∀ (v : V) (st : SubSt), (subIS env repl expandS v st).1.mem.map skel = st.mem.map skel
  | .link s i, st => by simp only [subIS]; exact leafS_skel h _ _
  | .ref o, st => by simp only [subIS]; exact leafS_skel h _ _
  | .list l, st => by
    have := subIsS_skel h l st
    simp only [subIS]
    revert this
    rcases subIsS env repl expandS l st with ⟨st', e | l'⟩ <;> exact id
  | .tuple l, st => by
    simp only [subIS]
    split
    · rfl
    · cases recall (.tuple l) st with
      | some w => rfl
      | none =>
        have := subIsS_skel h l (remember (.tuple l) (.tuple l) st)
        rw [remember_mem] at this
        simp only
        revert this
        rcases subIsS env repl expandS l (remember (.tuple l) (.tuple l) st) with ⟨st', e | l'⟩
        · exact id
        · simp only [remember_mem]; exact id
  | .dict ks vs, st => by
    have h1 := subIsS_skel h ks st
    simp only [subIS]
    revert h1
    rcases subIsS env repl expandS ks st with ⟨st1, e | ks'⟩
    · exact id
    · intro h1
      have h2 := subIsS_skel h vs st1
      simp only
      revert h2
      rcases subIsS env repl expandS vs st1 with ⟨st2, e | vs'⟩ <;> exact fun h2 => h2.trans h1
  | .obj t ns vs, st => by
    have h1 := subIsS_skel h vs st
    simp only [subIS]
    revert h1
    rcases subIsS env repl expandS vs st with ⟨st1, e | vs'⟩
    · exact id
    · simp only
      cases setObj env st1.mem t ns vs vs' <;> exact id
  | .none, st => by simp only [subIS]
  | .bool b, st => by simp only [subIS]
  | .int i, st => by simp only [subIS]
  | .float q, st => by simp only [subIS]
  | .str s, st => by simp only [subIS]
theorem subIsS_skel (h : ∀ o st, (expandS o st).1.mem.map skel = st.mem.map skel) : ∀ (l : List V) (st : SubSt), (subIsS env repl expandS l st).1.mem.map skel = st.mem.map skel
  | [], st => by simp only [subIsS]
  | v :: vs, st => by
    have h1 := subIS_skel h v st
    simp only [subIsS]
    revert h1
    rcases subIS env repl expandS v st with ⟨st1, e | w⟩
    · exact id
    · intro h1
      have h2 := subIsS_skel h vs st1
      simp only
      revert h2
      rcases subIsS env repl expandS vs st1 with ⟨st2, e | ws⟩ <;> exact fun h2 => h2.trans h1
end

theorem setFieldsN_skel (h : ∀ o st, (expandS o st).1.mem.map skel = st.mem.map skel) {o : Nat} {c : ECls} : ∀ (fs : List (String × V)) (st : SubSt),
    (setFieldsN env same repl expandS o c fs st).1.mem.map skel = st.mem.map skel := by
  intro fs
  induction fs with
  | nil => intro st; rfl
  | cons f fs ih =>
    obtain ⟨a, v⟩ := f
    intro st
    have h1 := subIS_skel (env := env) (repl := repl) h v st
    simp only [setFieldsN]
    revert h1
    rcases subIS env repl expandS v st with ⟨st1, e | w⟩
    · exact id
    · intro h1
      simp only
      split
      · exact (ih st1).trans h1
      · cases hs : setAttr env same st1.mem o c a w with
        | error e => exact h1
        | ok m => exact (ih { st1 with mem := m }).trans ((setAttr_skel hs).trans h1)
end

theorem expandIS_skel (env : Env) (same : Mem → Nat → Nat → Bool) (repl : Mem → V → Except PyErr (Option V)) : ∀ (k o : Nat) (st : SubSt),
    (expandIS env same repl k o st).1.mem.map skel = st.mem.map skel := by
  intro k
  induction k with
  | zero => intro o st; rfl
  | succ k ih =>
    intro o st
    simp only [expandIS]
    cases st.mem[o]? with
    | none => rfl
    | some x => exact setFieldsN_skel ih _ _

/-- **C60 (state)**: for any value and any index, whether or not it raises, there are the same entities with the same classes and ids. -/
theorem C60_state (env : Env) (same : Mem → Nat → Nat → Bool) (index : Dict (String × String) Nat) (k : Nat) (m : Mem) (v : V) :
    (objectsInplaceS env same index k m v).1.map skel = m.map skel :=
  subIS_skel (expandIS_skel env same (objectRepl index) k) v _

/-- an ingredient with links to its spec and its process; under the id of the process there is a material -/
def wrongCalls : List (ECls × List (String × V)) :=
  [(.materialRun, [("name", .str "m"), idArg "p"]), (.ingredientSpec, [("name", .str "flour"), idArg "s"]), (.ingredientRun, [("process", .link "id" "p"), ("spec", .link "id" "s"), idArg "j"])]

/-- **C60 (fails)**: that nothing changes if it raises is false. The link to the spec of an ingredient, in a list, has been resolved when under the id of its process a material is found. -/
theorem C60_raise_counterexample : ∃ m m', callAll plainEnv [] wrongCalls = .ok m ∧ Built plainEnv m ∧
    objectsInplace plainEnv (fun _ _ _ => false) [(("id", "p"), 0), (("id", "s"), 1)] 9 m (.list [.link "id" "no", .ref 2]) = .error .typeError ∧
    objectsInplaceS plainEnv (fun _ _ _ => false) [(("id", "p"), 0), (("id", "s"), 1)] 9 m (.list [.link "id" "no", .ref 2]) = (m', .error .typeError) ∧
    attrAt m 2 "_spec" = some (.link "id" "s") ∧ attrAt m' 2 "_spec" = some (.ref 1) ∧ attrAt m' 2 "_process" = some (.link "id" "p") := by
  have h : (match callAll plainEnv [] wrongCalls with
    | .ok m => (match objectsInplaceS plainEnv (fun _ _ _ => false) [(("id", "p"), 0), (("id", "s"), 1)] 9 m (.list [.link "id" "no", .ref 2]) with
      | (m', .error e) => decide (e = .typeError ∧ attrAt m 2 "_spec" = some (.link "id" "s") ∧ attrAt m' 2 "_spec" = some (.ref 1) ∧ attrAt m' 2 "_process" = some (.link "id" "p"))
      | _ => false)
    | .error _ => false) = true := by decide +kernel
  split at h
  · rename_i m hm
    split at h
    · rename_i m' e he
      obtain ⟨rfl, h2, h3, h4⟩ := of_decide_eq_true h
      refine ⟨m, m', hm, easy_built .nil (by decide +kernel) hm, ?_, he, h2, h3, h4⟩
      rw [C60_state_agrees, he]
    · cases h
  · cases h

/-- a material with a link to its spec; the ingredients 2 and 3 have a link to it: as material, and by mistake as process; the material 4 has a link to its spec and by mistake one to a material
as process, and the ingredient 5 a link to it -/
def deepCalls : List (ECls × List (String × V)) :=
  [(.materialSpec, [("name", .str "s"), idArg "s"]), (.materialRun, [("name", .str "m"), ("spec", .link "id" "s"), idArg "m"]), (.ingredientRun, [("material", .link "id" "m"), idArg "i"]),
    (.ingredientRun, [("process", .link "id" "m"), idArg "j"]), (.materialRun, [("name", .str "n"), ("spec", .link "id" "s"), ("process", .link "id" "m"), idArg "n"]),
    (.ingredientRun, [("material", .link "id" "n"), idArg "k"])]

/-- the ids -/
def deepIndex : Dict (String × String) Nat := [(("id", "s"), 0), (("id", "m"), 1), (("id", "n"), 4)]

/-- **C60 (fails)**: that nothing changes if it raises is false also for the entities below. The process of the ingredient 3 is refused when the spec of that material has been resolved; in the
material of the ingredient 5 the spec has been resolved when its process is refused. -/
theorem C60_raise_below_counterexample : ∃ m m1 m2, callAll plainEnv [] deepCalls = .ok m ∧ Built plainEnv m ∧
    objectsInplaceS plainEnv (fun _ _ _ => false) deepIndex 9 m (.ref 3) = (m1, .error .typeError) ∧ attrAt m 1 "_spec" = some (.link "id" "s") ∧ attrAt m1 1 "_spec" = some (.ref 0) ∧
    attrAt m1 3 "_process" = some (.link "id" "m") ∧
    objectsInplaceS plainEnv (fun _ _ _ => false) deepIndex 9 m (.ref 5) = (m2, .error .typeError) ∧ attrAt m 4 "_spec" = some (.link "id" "s") ∧ attrAt m2 4 "_spec" = some (.ref 0) ∧
    attrAt m2 5 "_material" = some (.link "id" "n") ∧ (objectsInplaceS plainEnv (fun _ _ _ => false) deepIndex 9 m (.ref 2)).2 = .ok (.ref 2) := by
  have h : (match callAll plainEnv [] deepCalls with
    | .ok m => (match objectsInplaceS plainEnv (fun _ _ _ => false) deepIndex 9 m (.ref 3), objectsInplaceS plainEnv (fun _ _ _ => false) deepIndex 9 m (.ref 5),
        objectsInplaceS plainEnv (fun _ _ _ => false) deepIndex 9 m (.ref 2) with
      | (m1, .error e1), (m2, .error e2), (_, .ok w) => decide (e1 = .typeError ∧ e2 = .typeError ∧ w = .ref 2 ∧ attrAt m 1 "_spec" = some (.link "id" "s") ∧
          attrAt m1 1 "_spec" = some (.ref 0) ∧ attrAt m1 3 "_process" = some (.link "id" "m") ∧ attrAt m 4 "_spec" = some (.link "id" "s") ∧ attrAt m2 4 "_spec" = some (.ref 0) ∧
          attrAt m2 5 "_material" = some (.link "id" "n"))
      | _, _, _ => false)
    | .error _ => false) = true := by decide +kernel
  split at h
  · rename_i m hm
    split at h
    · rename_i m1 e1 m2 e2 m3 w g1 g2 g3
      obtain ⟨rfl, rfl, rfl, h1, h2, h3, h4, h5, h6⟩ := of_decide_eq_true h
      exact ⟨m, m1, m2, hm, easy_built .nil (by decide +kernel) hm, g1, h1, h2, h3, g2, h4, h5, h6, by rw [g3]⟩
    · cases h
  · cases h

end Verif.Inplace
