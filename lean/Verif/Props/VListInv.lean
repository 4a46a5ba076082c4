import Verif.Model.ValidList
/-!
# A general invariant principle for validated lists
-/

namespace Verif.VList
open Verif.Py

variable {α σ : Type}

/-- In world `w`, whatever is stored for an accepted element satisfies `I`. -/
def Stores (c : Cfg α σ) (w : σ) (I : α → Prop) : Prop :=
  ∀ a b w', c.ok a = true → fire c w a = (w', .ok b) → I b

/-- the trigger does not change the world -/
def Still (c : Cfg α σ) (w : σ) : Prop := ∀ a w' r, fire c w a = (w', r) → w' = w

theorem fireAll_inv {c : Cfg α σ} {w : σ} {I : α → Prop} (hs : Stores c w I) (ht : Still c w) {l bs : List α} {w' : σ}
    (hl : ∀ a ∈ l, c.ok a = true) (h : fireAll c w l = (w', .ok bs)) : ∀ b ∈ bs, I b := by
  induction l generalizing w' bs with
  | nil => simp only [fireAll, Prod.mk.injEq, Except.ok.injEq] at h; rw [← h.2]; simp
  | cons a l ih =>
    simp only [fireAll] at h
    split at h
    · simp at h
    · rename_i w1 b hf
      have := ht _ _ _ hf
      subst this
      split at h
      · rename_i w2 bs' hfa
        simp only [Prod.mk.injEq, Except.ok.injEq] at h
        rw [← h.2]
        intro x hx
        rcases List.mem_cons.mp hx with rfl | hx
        · exact hs _ _ _ (hl a (by simp)) hf
        · exact ih (fun y hy => hl y (List.mem_cons_of_mem _ hy)) hfa x hx
      · simp at h

theorem fireAll_still {c : Cfg α σ} {w : σ} (ht : Still c w) (l : List α) : (fireAll c w l).1 = w := by
  induction l with
  | nil => rfl
  | cons a l ih =>
    simp only [fireAll]
    split
    · rename_i w1 e hf; exact ht _ _ _ hf
    · rename_i w1 b hf
      have := ht _ _ _ hf
      subst this
      generalize hr : fireAll c w1 l = r at ih
      obtain ⟨w2, r⟩ := r
      cases r <;> exact ih

theorem init_inv {c : Cfg α σ} {w : σ} {I : α → Prop} (hs : Stores c w I) (ht : Still c w) {arg : Arg α} {l : List α}
    {w' : σ} (h : init c w arg = (w', .ok l)) : w' = w ∧ ∀ a ∈ l, I a := by
  have key : ∀ arg : Arg α, (if validateAll c arg.first = true then fireAll c w arg.again
      else (w, .error .typeError)) = (w', .ok l) → (∀ a ∈ arg.again, a ∈ arg.first) → w' = w ∧ ∀ a ∈ l, I a := by
    intro arg h hsub
    split at h
    · rename_i hv
      have h1 := fireAll_still ht arg.again
      rw [h] at h1
      exact ⟨h1, fireAll_inv hs ht (fun a ha => List.all_eq_true.mp hv a (hsub a ha)) h⟩
    · simp at h
  cases arg with
  | seq l => exact key (.seq l) h (by simp [Arg.again, Arg.first])
  | oneShot l => exact key (.oneShot l) h (by simp [Arg.again])
  | notIterable => simp [init] at h

theorem init_still {c : Cfg α σ} {w : σ} (ht : Still c w) (arg : Arg α) : (init c w arg).1 = w := by
  have key : ∀ arg : Arg α, (if validateAll c arg.first = true then fireAll c w arg.again
      else (w, .error .typeError)).1 = w := by
    intro arg
    split
    · exact fireAll_still ht _
    · rfl
  cases arg with
  | seq l => exact key _
  | oneShot l => exact key _
  | notIterable => rfl

theorem step_inv {c : Cfg α σ} {w : σ} {I : α → Prop} (hs : Stores c w I) (ht : Still c w) (l : List α) (op : Op α)
    (hl : ∀ a ∈ l, I a) : (step c w l op).1 = w ∧ ∀ a ∈ (step c w l op).2.1, I a := by
  cases op with
  | setItem i a =>
    simp only [step, setItem]
    split
    · rename_i hok
      split
      · rename_i hf; exact ⟨ht _ _ _ hf, hl⟩
      · rename_i w' b hf
        have := ht _ _ _ hf
        subst this
        split
        · refine ⟨rfl, fun x hx => ?_⟩
          rcases List.mem_or_eq_of_mem_set hx with hx | rfl
          · exact hl x hx
          · exact hs _ _ _ hok hf
        · exact ⟨rfl, hl⟩
    · exact ⟨rfl, hl⟩
  | append a =>
    simp only [step, append]
    split
    · rename_i hok
      split
      · rename_i hf; exact ⟨ht _ _ _ hf, hl⟩
      · rename_i w' b hf
        refine ⟨ht _ _ _ hf, fun x hx => ?_⟩
        rcases List.mem_append.mp hx with hx | hx
        · exact hl x hx
        · rw [List.mem_singleton.mp hx]; exact hs _ _ _ hok hf
    · exact ⟨rfl, hl⟩
  | extend arg =>
    have key : ∀ arg : Arg α, (∀ a ∈ arg.again, a ∈ arg.first) →
        (let r := (if validateAll c arg.first then
          (match fireAll c w arg.again with
          | (w', .error e) => (w', l, .error e)
          | (w', .ok bs) => (w', l ++ bs, .ok ()))
          else (w, l, .error .typeError) : Ret α σ); r.1 = w ∧ ∀ a ∈ r.2.1, I a) := by
      intro arg hsub
      simp only
      split
      · rename_i hv
        have hst := fireAll_still ht arg.again
        split
        · rename_i hf; rw [hf] at hst; exact ⟨hst, hl⟩
        · rename_i w' bs hf
          rw [hf] at hst
          refine ⟨hst, fun x hx => ?_⟩
          rcases List.mem_append.mp hx with hx | hx
          · exact hl x hx
          · exact fireAll_inv hs ht (fun a ha => List.all_eq_true.mp hv a (hsub a ha)) hf x hx
      · exact ⟨rfl, hl⟩
    cases arg with
    | seq l => exact key (.seq l) (by simp [Arg.again, Arg.first])
    | oneShot l => exact key (.oneShot l) (by simp [Arg.again])
    | notIterable => exact ⟨rfl, hl⟩
  | insert i a =>
    simp only [step, insert]
    split
    · rename_i hok
      split
      · rename_i hf; exact ⟨ht _ _ _ hf, hl⟩
      · rename_i w' b hf
        refine ⟨ht _ _ _ hf, fun x hx => ?_⟩
        rcases List.mem_append.mp hx with hx | hx
        · exact hl x (List.mem_of_mem_take hx)
        · rcases List.mem_cons.mp hx with rfl | hx
          · exact hs _ _ _ hok hf
          · exact hl x (List.mem_of_mem_drop hx)
    · exact ⟨rfl, hl⟩
  | delItem i =>
    simp only [step]
    split
    · exact ⟨rfl, fun x hx => hl x (List.mem_of_mem_eraseIdx hx)⟩
    · exact ⟨rfl, hl⟩
  | reverse => exact ⟨rfl, fun x hx => hl x (List.mem_reverse.mp hx)⟩
  | clear => exact ⟨rfl, fun x hx => by cases hx⟩

theorem step_refused (c : Cfg α σ) (w : σ) (l : List α) (op : Op α) (e : PyErr) (h : (step c w l op).2.2 = .error e) :
    (step c w l op).2.1 = l := by
  cases op with
  | setItem i a =>
    revert h
    simp only [step, setItem]
    split
    · split
      · intro _; rfl
      · split
        · intro h; cases h
        · intro _; rfl
    · intro _; rfl
  | append a =>
    revert h
    simp only [step, append]
    split
    · split
      · intro _; rfl
      · intro h; cases h
    · intro _; rfl
  | extend arg =>
    have key : ∀ r : σ × Except PyErr (List α), ∀ b : Bool,
        (if b then (match r with
          | (w', .error e) => (w', l, .error e)
          | (w', .ok bs) => (w', l ++ bs, .ok ()))
          else (w, l, .error .typeError) : Ret α σ).2.2 = .error e →
        (if b then (match r with
          | (w', .error e) => (w', l, .error e)
          | (w', .ok bs) => (w', l ++ bs, .ok ()))
          else (w, l, .error .typeError) : Ret α σ).2.1 = l := by
      intro r b
      obtain ⟨w', r⟩ := r
      cases b <;> cases r <;> simp
    cases arg with
    | seq l' => exact key (fireAll c w l') (validateAll c l') h
    | oneShot l' => exact key (fireAll c w []) (validateAll c l') h
    | notIterable => rfl
  | insert i a =>
    revert h
    simp only [step, insert]
    split
    · split
      · intro _; rfl
      · intro h; cases h
    · intro _; rfl
  | delItem i =>
    revert h
    simp only [step]
    split
    · intro h; cases h
    · intro _; rfl
  | reverse => cases h
  | clear => cases h

theorem validateList_inv {c : Cfg α σ} {w : σ} {I : α → Prop} (hs : Stores c w I) (ht : Still c w) {arg : ListArg α}
    {l : List α} {w' : σ} (h : validateList c w arg = (w', .ok l)) : w' = w ∧ ∀ a ∈ l, I a := by
  cases arg with
  | none => exact init_inv (arg := .seq []) hs ht h
  | single a => exact init_inv (arg := .seq [a]) hs ht h
  | iter arg => exact init_inv (arg := arg) hs ht h

theorem validateList_still {c : Cfg α σ} {w : σ} (ht : Still c w) (arg : ListArg α) : (validateList c w arg).1 = w := by
  cases arg <;> exact init_still ht _

end Verif.VList
