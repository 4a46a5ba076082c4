import Verif.Props.InplaceLinks
import Verif.Props.InplaceEx
import Verif.Props.EqualEx
/-!
# C61: the hypotheses can be met, and what happens when they are not
-/

set_option linter.unusedSimpArgs false
set_option linter.unusedVariables false
set_option linter.unusedSectionVars false

namespace Verif.Inplace
open Verif.Py Verif.Value Verif.Schema Verif.Json Verif.Substitute

/-- `==` between entities, as in C33 and C34, with at most `n` nested calls and at most `k` nested comparisons of values -/
def pyEq (n k : Nat) (m : Mem) (q o : Nat) : Bool := decide (Equal.equals (Equal.uidsIn m) (Equal.dictIn m) n k q o = some (.ok true))

/-- entities with different uids are not equal -/
theorem pyEq_uids {n k : Nat} {m : Mem} {q o : Nat} (h : Equal.sameUids (Equal.uidsIn m q) (Equal.uidsIn m o) = false) : pyEq n k m q o = false := by
  unfold pyEq
  rw [decide_eq_false_iff_not]
  intro e
  cases k with
  | zero => cases e
  | succ k =>
    unfold Equal.equals Equal.entityEq at e
    cases n with
    | zero => simp only [Equal.cachedEquals] at e; cases e
    | succ n =>
      simp only [Equal.cachedEquals, Equal.body, Dict.get?, h] at e
      split at e
      · cases e
      · cases e
      · rename_i r c hr
        split at hr
        · cases hr; simp at e
        · simp at hr; simp [← hr.1] at e

/-- with `==` for `same`, it is enough that no other entity with a two-way link to the same entity has the same uids -/
theorem alone_of_uids {n k : Nat} {m : Mem} {o : Nat}
    (h : ∀ q b p, q ≠ o → Points m b q p → Points m b o p → Equal.sameUids (Equal.uidsIn m q) (Equal.uidsIn m o) = false) :
    ∀ mem : Mem, mem.map skel = m.map skel → (∀ q a, q ≠ o → a ∉ backNames → attrAt mem q a = attrAt m q a) →
      ∀ q b p, q ≠ o → Points m b q p → Points m b o p → pyEq n k mem q o = false := by
  intro mem hsk _ q b p hq h1 h2
  have hu : ∀ r, Equal.uidsIn mem r = Equal.uidsIn m r := by
    intro r
    unfold Equal.uidsIn
    cases hr : m[r]? with
    | none =>
      have : mem[r]? = none := by
        rw [List.getElem?_eq_none_iff] at hr ⊢
        have := congrArg List.length hsk
        simp only [List.length_map] at this
        omega
      rw [this]
    | some y =>
      obtain ⟨y', hy', hs⟩ := skel_at hsk hr
      rw [hy']
      exact congrArg (fun s => s.2.1) hs
  exact pyEq_uids (by rw [hu, hu]; exact h q b p hq h1 h2)

/-! ## A concrete case -/

/-- all that is to be checked of a small memory: the attributes of `o` are simple, and lead to entities with ids -/
def linkOkB (m : Mem) (o : Nat) : Bool := match m[o]? with
  | some x => x.fields.all fun f => decide (f.1 ∈ backNames) || (simple f.2 && f.2.subs.all (fun w => match w with
    | .ref p => match m[p]? with | some y => !y.uids.isEmpty | none => false
    | _ => true))
  | none => false

theorem linkOkB_spec {lower : String → String} {m : Mem} {o : Nat} (h : linkOkB m o = true) {a : String} {u : V} (ha : a ∉ backNames) (hu : attrAt m o a = some u) :
    simple u = true ∧ ∀ p, V.ref p ∈ u.subs → ∃ y, m[p]? = some y ∧ Linkable lower none true y := by
  unfold attrAt at hu
  unfold linkOkB at h
  split at hu
  · rename_i x hx
    rw [hx] at h
    have h2 := List.all_eq_true.1 h _ (Dict.mem_of_get? hu)
    simp only [Bool.or_eq_true, decide_eq_true_eq, Bool.and_eq_true] at h2
    obtain ⟨h3, h4⟩ := h2.resolve_left ha
    refine ⟨h3, fun p hp => ?_⟩
    have := List.all_eq_true.1 h4 _ hp
    simp only at this
    split at this
    · rename_i y hy
      exact ⟨y, hy, by intro e; simp [e] at this, .inl rfl⟩
    · cases this
  · cases hu

/-- a process with two ingredients, of which the second has a spec -/
def sharedCalls : List (ECls × List (String × V)) :=
  [(.processRun, [("name", .str "p"), idArg "p"]),
   (.ingredientSpec, [("name", .str "flour"), idArg "s"]),
   (.ingredientRun, [("process", .ref 0), idArg "i"]),
   (.ingredientRun, [("process", .ref 0), ("spec", .ref 1), idArg "j"])]

/-- the hypotheses of C61 are met, with `==` as it is: a process has two ingredients with different ids. The second is substituted, so the process forgets it, and it keeps the name that
it got from its spec. -/
theorem shared_ready : ∃ m m', callAll plainEnv [] sharedCalls = .ok m ∧ Built plainEnv m ∧ LinkReady plainEnv (pyEq 99 3) none true m 3 ∧ attrAt m 0 "_ingredients" = some (.list [.ref 2, .ref 3]) ∧
    attrAt m 3 "_name" ≠ some (.str "flour") ∧
    linksInplace plainEnv (pyEq 99 3) none true m (.ref 3) = .ok (.ref 3, m') ∧ attrAt m' 0 "_ingredients" = some (.list [.ref 2]) ∧
    attrAt m' 3 "_process" = some (.link "id" "p") ∧ attrAt m' 3 "_spec" = some (.link "id" "s") ∧ attrAt m' 3 "_name" = some (.str "flour") := by
  have h : (match callAll plainEnv [] sharedCalls with
    | .ok m => (match linksInplace plainEnv (pyEq 99 3) none true m (.ref 3) with
      | .ok (w, m') => decide (w = .ref 3 ∧ attrAt m 0 "_ingredients" = some (.list [.ref 2, .ref 3]) ∧ attrAt m 3 "_name" ≠ some (.str "flour") ∧
          attrAt m' 0 "_ingredients" = some (.list [.ref 2]) ∧
          attrAt m' 3 "_process" = some (.link "id" "p") ∧ attrAt m' 3 "_spec" = some (.link "id" "s") ∧ attrAt m' 3 "_name" = some (.str "flour") ∧ m.length = 4) &&
          linkOkB m 3 &&
          (List.range 3).all (fun q => decide (Equal.sameUids (Equal.uidsIn m q) (Equal.uidsIn m 3) = false)) &&
          (List.range 4).all (fun a => (clsAt m a).toList.all (fun c => (backRef c).toList.all (fun e => decide (e.2 ≠ "_output_material"))))
      | .error _ => false)
    | .error _ => false) = true := by decide +kernel
  split at h
  · rename_i m hm
    split at h
    · rename_i w m' hw
      simp only [Bool.and_eq_true] at h
      obtain ⟨⟨⟨g, h5⟩, h6⟩, h7⟩ := h
      obtain ⟨rfl, h1, h2, h3, h4, h8, h9, hlen⟩ := of_decide_eq_true g
      have hb := easy_built .nil (by decide +kernel) hm
      refine ⟨m, m', hm, hb, ⟨hb.wellTyped plainEnv_sane, by omega, fun a u ha hu => simple_plain (linkOkB_spec (lower := plainEnv.lower) h5 ha hu).1,
        fun a u p ha hu hp _ => (linkOkB_spec h5 ha hu).2 p hp, built_twoWay plainEnv_sane hb (fun a c b hp _ => ?_),
        alone_of_uids (fun q b p hq hp _ => ?_)⟩, h1, h2, hw, h3, h4, h8, h9⟩
      · obtain ⟨c, there, e1, e2, e3⟩ := points_attr.1 hp
        have hlt := points_lt hp
        have := of_decide_eq_true (List.all_eq_true.1 (List.all_eq_true.1 (List.all_eq_true.1 h7 a (List.mem_range.2 (by omega))) c (by simp [e1]))
          (there, "_output_material") (by simp [e2]))
        exact absurd rfl this
      · have hlt := points_lt hp
        exact of_decide_eq_true (List.all_eq_true.1 h6 q (List.mem_range.2 (by omega)))
    · cases h
  · cases h

/-- the hypotheses of C61 for values are met -/
example (v : V) (hv : v = .list [.ref 0, .str "a", .link "id" "x", .list [.ref 1]]) : (∀ o, v ≠ .ref o) ∧ Plain v ∧ okV plainEnv givenMem v ∧
    (∀ p, V.ref p ∈ v.subs → ∃ y, givenMem[p]? = some y ∧ Linkable plainEnv.lower none true y) ∧
    linksInplace plainEnv (pyEq 99 3) none true givenMem v = .ok (.list [.link "id" "p", .str "a", .link "id" "x", .list [.link "id" "m"]], givenMem) := by
  subst hv
  refine ⟨by simp, by simp [Plain, Plains], by simp [okV, okVs], fun p hp => ?_, by decide +kernel⟩
  have hu : ((givenMem[0]?.toList ++ givenMem[1]?.toList).map (fun y : EObj => y.uids.isEmpty)) = [false, false] := by decide +kernel
  have hlen := givenMem_eq.2.1
  simp [V.subs, subss] at hp
  rcases hp with rfl | rfl
  · refine ⟨givenMem[0]'(by omega), List.getElem?_eq_getElem _, ?_, .inl rfl⟩
    intro e
    simp [List.getElem?_eq_getElem (show 0 < givenMem.length by omega), List.getElem?_eq_getElem (show 1 < givenMem.length by omega), e] at hu
  · refine ⟨givenMem[1]'(by omega), List.getElem?_eq_getElem _, ?_, .inl rfl⟩
    intro e
    simp [List.getElem?_eq_getElem (show 0 < givenMem.length by omega), List.getElem?_eq_getElem (show 1 < givenMem.length by omega), e] at hu

/-- C61, two-way links: a process has two ingredients that are equal (neither has an id). If the entities in the second are replaced by links, then the process forgets the first
(`list.remove` compares with `==`, ingredient_run.py:126-128): afterwards it has the second, which has it no more, and does not have the first, which still has it. -/
theorem C61_equal_ingredients_counterexample : ∃ m m', Built plainEnv m ∧ TwoWay m ∧ attrAt m 0 "_ingredients" = some (.list [.ref 1, .ref 2]) ∧
    linksInplace plainEnv (pyEq 99 3) none true m (.ref 2) = .ok (.ref 2, m') ∧ attrAt m' 0 "_ingredients" = some (.list [.ref 2]) ∧
    attrAt m' 1 "_process" = some (.ref 0) ∧ attrAt m' 2 "_process" = some (.link "id" "p") ∧ ¬ TwoWay m' := by
  have h : (match callAll plainEnv [] [(.processRun, [("name", .str "p"), idArg "p"]), (.ingredientRun, [("process", .ref 0)]), (.ingredientRun, [("process", .ref 0)])] with
    | .ok m => (match linksInplace plainEnv (pyEq 99 3) none true m (.ref 2) with
      | .ok (w, m') => decide (w = .ref 2 ∧ attrAt m 0 "_ingredients" = some (.list [.ref 1, .ref 2]) ∧ attrAt m' 0 "_ingredients" = some (.list [.ref 2]) ∧
          attrAt m' 1 "_process" = some (.ref 0) ∧ attrAt m' 2 "_process" = some (.link "id" "p") ∧ clsAt m' 1 = some .ingredientRun ∧ m.length = 3) &&
          (List.range 3).all (fun a => (clsAt m a).toList.all (fun c => (backRef c).toList.all (fun e => decide (e.2 ≠ "_output_material"))))
      | .error _ => false)
    | .error _ => false) = true := by decide +kernel
  split at h
  · rename_i m hm
    split at h
    · rename_i w m' hw
      obtain ⟨g, h7⟩ := (Bool.and_eq_true _ _).mp h
      obtain ⟨rfl, h1, h2, h3, h4, h5, hlen⟩ := of_decide_eq_true g
      have hb := easy_built .nil (by decide +kernel) hm
      refine ⟨m, m', hb, built_twoWay plainEnv_sane hb (fun a c b hp _ => ?_), h1, hw, h2, h3, h4, fun ht => ?_⟩
      · obtain ⟨c, there, e1, e2, e3⟩ := points_attr.1 hp
        have hlt := points_lt hp
        have := of_decide_eq_true (List.all_eq_true.1 (List.all_eq_true.1 (List.all_eq_true.1 h7 a (List.mem_range.2 (by omega))) c (by simp [e1]))
          (there, "_output_material") (by simp [e2]))
        exact absurd rfl this
      · have hp : Points m' "_ingredients" 1 0 := points_attr.2 ⟨.ingredientRun, "_process", h5, by decide, h3⟩
        generalize hv : V.list [.ref 2] = v at h2
        cases ht 0 "_ingredients" v (by decide) h2 with
        | many as hne hnd hpt =>
          have := (hpt 1).2 hp
          cases as with
          | nil => cases this
          | cons a as => cases as with
            | nil =>
              simp at hv this
              omega
            | cons b as => simp at hv
        | none e => exact absurd e (by decide)
        | one a e => exact absurd e (by decide)
    · cases h
  · cases h

end Verif.Inplace
