import Verif.Model.InplaceState
import Verif.Props.InplaceNeeds
import Verif.Props.InplaceLinksEx
/-!
# C61: what is left behind if replacing entities by links raises
-/

namespace Verif.Inplace
open Verif.Py Verif.Value Verif.Schema Verif.Json Verif.Substitute

section
variable {env : Env} {same : Mem → Nat → Nat → Bool} {repl : Mem → V → Except PyErr (Option V)} {expand : Nat → SubSt → Except PyErr SubSt} {o : Nat} {c : ECls}

theorem setFieldsS_agrees : ∀ (fs : List (String × V)) (st : SubSt), setFields env same repl expand o c fs st =
    match setFieldsS env same repl expand o c fs st with
    | (st', none) => .ok st'
    | (_, some e) => .error e := by
  intro fs
  induction fs with
  | nil => intro st; rfl
  | cons f fs ih =>
    obtain ⟨a, v⟩ := f
    intro st
    simp only [setFields, setFieldsS]
    cases subI env repl expand v st with
    | error e => rfl
    | ok r =>
      obtain ⟨w, st1⟩ := r
      simp only
      split
      · exact ih st1
      · cases setAttr env same st1.mem o c a w with
        | error e => rfl
        | ok m => exact ih _

end

/-- **C61 (state)**: the account with the memory at the exception agrees with the one without. -/
theorem C61_state_agrees (env : Env) (same : Mem → Nat → Nat → Bool) (scope : Option String) (fallback : Bool) (m : Mem) (o : Nat) :
    linksInplace env same scope fallback m (.ref o) = match linksInplaceS env same scope fallback m o with
      | (m', none) => .ok (.ref o, m')
      | (_, some e) => .error e := by
  have hrec : recall (V.ref o) { visited := [], mem := m } = none := by simp [recall, V.hash, Dict.get?]
  have hM : (remember (.ref o) (.ref o) { visited := [], mem := m }).mem = m := remember_mem _ _ _
  simp only [linksInplace, substituteI, subI, leaf, hrec, linkRepl, if_true, Option.getD_none, into, expandI, hM, linksInplaceS]
  cases hx : m[o]? with
  | none => rfl
  | some x =>
    simp only [setFieldsS_agrees]
    generalize setFieldsS env same _ _ o x.cls (shown m x) _ = r
    obtain ⟨st', e⟩ := r
    cases e <;> rfl

theorem other_setField {m : Mem} {p : Nat} {n : String} {f : V → V} {o : Nat} (h : p = o ∨ n ∈ backNames) (q : Nat) (a : String) (hq : q ≠ o) (ha : a ∉ backNames) :
    attrAt (setField m p n f) q a = attrAt m q a := by
  rw [attrAt_setField, if_neg]
  rintro ⟨rfl, rfl⟩
  exact h.elim hq ha

theorem setAttr_other {env : Env} {same : Mem → Nat → Nat → Bool} {mem mem' : Mem} {o : Nat} {c : ECls} {b : String} {v : V} (e : setAttr env same mem o c b v = .ok mem')
    (q : Nat) (a : String) (hq : q ≠ o) (ha : a ∉ backNames) : attrAt mem' q a = attrAt mem q a := by
  unfold setAttr at e
  split at e
  · cases e
  · split at e
    · cases e
    · rename_i w _ _ m1 hu
      cases e
      have h1 : attrAt m1 q a = attrAt mem q a := by
        unfold unlink at hu
        split at hu
        · cases hu; rfl
        · rename_i there back hb
          have := backRef_names hb
          repeat' split at hu
          all_goals first
            | cases hu; rfl
            | cases hu; exact other_setField (o := o) (.inr this) q a hq ha
            | cases hu
      have h2 : attrAt (keepNames m1 o c b) q a = attrAt m1 q a := by
        unfold keepNames
        repeat' split
        all_goals first | rfl | rw [other_setField (o := o) (.inl rfl) q a hq ha, other_setField (o := o) (.inl rfl) q a hq ha]
      have h3 : ∀ m2 : Mem, attrAt (tell m2 o c b w) q a = attrAt m2 q a := by
        intro m2
        unfold tell
        split
        · rfl
        · rename_i there back hb
          have := backRef_names hb
          split
          · split
            · exact other_setField (o := o) (.inr this) q a hq ha
            · rfl
          · rfl
      rw [h3, other_setField (o := o) (.inl rfl) q a hq ha, h2, h1]

theorem setFieldsS_kept {env : Env} {same : Mem → Nat → Nat → Bool} {scope : Option String} {fallback : Bool} {expand : Nat → SubSt → Except PyErr SubSt} {m : Mem} {o : Nat} {c : ECls} :
    ∀ (fs : List (String × V)) (st : SubSt), (∀ f ∈ fs, Plain f.2) → Met env.lower scope fallback m (.ref o) st → (∀ q a, q ≠ o → a ∉ backNames → attrAt st.mem q a = attrAt m q a) →
      (setFieldsS env same (linkRepl env.lower scope fallback (.ref o)) expand o c fs st).1.mem.map skel = m.map skel ∧
      ∀ q a, q ≠ o → a ∉ backNames → attrAt (setFieldsS env same (linkRepl env.lower scope fallback (.ref o)) expand o c fs st).1.mem q a = attrAt m q a := by
  intro fs
  induction fs with
  | nil => intro st _ h ho; exact ⟨h.sk, ho⟩
  | cons f fs ih =>
    obtain ⟨b, v⟩ := f
    intro st hp h ho
    simp only [setFieldsS]
    split
    · exact ⟨h.sk, ho⟩
    · rename_i w st1 he
      obtain ⟨m1, i1, _⟩ := subI_met v st st1 w (hp (b, v) (by simp)) h he
      have ho1 : ∀ q a, q ≠ o → a ∉ backNames → attrAt st1.mem q a = attrAt m q a := by rw [m1]; exact ho
      split
      · exact ih st1 (fun g hg => hp g (by simp [hg])) i1 ho1
      · split
        · exact ⟨i1.sk, ho1⟩
        · rename_i mem' hs
          exact ih { st1 with mem := mem' } (fun g hg => hp g (by simp [hg])) ⟨(setAttr_skel hs).trans i1.sk, i1.vis, i1.top⟩
            fun q a hq ha => (setAttr_other hs q a hq ha).trans (ho1 q a hq ha)

/-- **C61 (state)**: whether or not it raises, there are the same entities with the same classes and ids, and nothing of another entity than that given changes but its back references. -/
theorem C61_state {env : Env} {same : Mem → Nat → Nat → Bool} {scope : Option String} {fallback : Bool} {m : Mem} {o : Nat} {x : EObj} (hx : m[o]? = some x)
    (hp : ∀ f ∈ shown m x, Plain f.2) : (linksInplaceS env same scope fallback m o).1.map skel = m.map skel ∧
    ∀ q a, q ≠ o → a ∉ backNames → attrAt (linksInplaceS env same scope fallback m o).1 q a = attrAt m q a := by
  have hM : (remember (.ref o) (.ref o) { visited := [], mem := m }).mem = m := remember_mem _ _ _
  simp only [linksInplaceS, hx]
  refine setFieldsS_kept (shown m x) _ hp ⟨by rw [hM], fun p w hk => ?_, fun o' ho' => ?_⟩ (by rw [hM]; exact fun _ _ _ _ => rfl)
  · rcases remember_get (hash_pointer (t := .ref o) trivial) hk with ⟨e, _⟩ | ⟨_, hk⟩
    · exact .inl e
    · simp [Dict.get?] at hk
  · cases ho'
    exact ⟨.ref o, by simp [remember, V.hash, V.norm, Dict.set, Dict.get?]⟩

/-- an ingredient of a process without id, with a spec that has one -/
def halfCalls : List (ECls × List (String × V)) :=
  [(.processRun, [("name", .str "p")]), (.ingredientSpec, [("name", .str "flour"), idArg "s"]), (.ingredientRun, [("process", .ref 0), ("spec", .ref 1), idArg "j"])]

/-- **C61 (fails)**: that nothing changes if it raises is false. The spec of an ingredient has been replaced by a link when its process turns out to have no id. -/
theorem C61_raise_counterexample : ∃ m m', callAll plainEnv [] halfCalls = .ok m ∧ Built plainEnv m ∧ linksInplace plainEnv (pyEq 99 3) none true m (.ref 2) = .error .valueError ∧
    linksInplaceS plainEnv (pyEq 99 3) none true m 2 = (m', some .valueError) ∧ attrAt m 2 "_spec" = some (.ref 1) ∧ attrAt m' 2 "_spec" = some (.link "id" "s") ∧
    attrAt m' 2 "_process" = some (.ref 0) ∧ attrAt m' 0 "_ingredients" = some (.list [.ref 2]) := by
  have h : (match callAll plainEnv [] halfCalls with
    | .ok m => decide ((linksInplaceS plainEnv (pyEq 99 3) none true m 2).2 = some .valueError ∧ attrAt m 2 "_spec" = some (.ref 1) ∧
        attrAt (linksInplaceS plainEnv (pyEq 99 3) none true m 2).1 2 "_spec" = some (.link "id" "s") ∧
        attrAt (linksInplaceS plainEnv (pyEq 99 3) none true m 2).1 2 "_process" = some (.ref 0) ∧
        attrAt (linksInplaceS plainEnv (pyEq 99 3) none true m 2).1 0 "_ingredients" = some (.list [.ref 2]))
    | .error _ => false) = true := by decide +kernel
  split at h
  · rename_i m hm
    obtain ⟨h1, h2, h3, h4, h5⟩ := of_decide_eq_true h
    have he : linksInplaceS plainEnv (pyEq 99 3) none true m 2 = ((linksInplaceS plainEnv (pyEq 99 3) none true m 2).1, some .valueError) := Prod.ext rfl h1
    refine ⟨m, _, hm, easy_built .nil (by decide +kernel) hm, ?_, he, h2, h3, h4, h5⟩
    rw [C61_state_agrees, he]
  · cases h

/-- the hypotheses of `C61_entity_ids` are met -/
example : ∃ m, Built plainEnv m ∧ LinkReady' plainEnv (pyEq 99 3) m 3 := by
  obtain ⟨m, _, _, hb, h, _⟩ := shared_ready
  exact ⟨m, hb, h.typed, h.there, h.plain, h.two, h.alone⟩

end Verif.Inplace
