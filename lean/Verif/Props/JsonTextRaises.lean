import Verif.Props.JsonTextMore
/-!
# C75: what reading raises, and the case of hexadecimal digits
-/

namespace Verif.JsonText
open Verif.Py Verif.Value Verif.Schema Verif.Json

section
variable {σ : Type} (F : Floats) (hook : List (String × V) → σ → Except PyErr (V × σ))

/-- the exceptions of reading: JSONDecodeError, what the hook raises, and what is not modelled (lone surrogates, NaN and the infinities) -/
def Raises (e : PyErr) : Prop := e = .valueError ∨ e = .other ∨ ∃ ps s, hook ps s = .error e

theorem unit_raises {cs : List Char} {e : PyErr} (h : unit cs = .error e) : e = .valueError ∨ e = .other := by
  unfold unit at h
  split at h <;> try (simp only [Except.error.injEq, reduceCtorEq] at h)
  · exact .inl h.symm
  · split at h
    · simp only [Except.error.injEq] at h; exact .inl h.symm
    · split at h
      · unfold secondHalf at h
        split at h
        · split at h
          · simp only [Except.error.injEq] at h; exact .inl h.symm
          · split at h
            · simp only [reduceCtorEq] at h
            · simp only [Except.error.injEq] at h; exact .inr h.symm
        · simp only [Except.error.injEq] at h; exact .inr h.symm
      · split at h
        · simp only [Except.error.injEq] at h; exact .inr h.symm
        · simp only [reduceCtorEq] at h
  · exact .inl h.symm
  · split at h
    · simp only [Except.error.injEq] at h; exact .inl h.symm
    · simp only [reduceCtorEq] at h

theorem scanString_raises : ∀ (n : Nat) (cs : List Char) (e : PyErr), scanString n cs = .error (.raised e) → e = .valueError ∨ e = .other
  | 0, _, _, h => by simp [scanString] at h
  | n + 1, cs, e, h => by
    unfold scanString at h
    split at h
    · simp at h
    · split at h
      · rename_i e' he
        simp only [Except.error.injEq, Stop.raised.injEq] at h
        subst h
        exact unit_raises he
      · split at h
        · rename_i e' he
          simp only [Except.error.injEq] at h
          subst h
          exact scanString_raises n _ _ he
        · simp at h

theorem close_raises {ps : List (String × V)} {r : List Char} {s : σ} {e : PyErr} (h : close hook ps r s = .error (.raised e)) : Raises hook e := by
  unfold close at h
  split at h
  · rename_i e' he
    simp only [Except.error.injEq, Stop.raised.injEq] at h
    subst h
    exact .inr (.inr ⟨_, _, he⟩)
  · simp at h

theorem atom_raises {cs : List Char} {s : σ} {e : PyErr} (h : atom F cs s = .error (.raised e)) : e = .valueError ∨ e = .other := by
  unfold atom at h
  repeat' split at h
  all_goals first
    | (simp only [Except.error.injEq, Stop.raised.injEq] at h; first | exact .inl h.symm | exact .inr h.symm)
    | (simp only [reduceCtorEq] at h)

theorem value_raises (n : Nat) : (∀ cs s e, value F hook n cs s = .error (.raised e) → Raises hook e) ∧ (∀ cs s e, elements F hook n cs s = .error (.raised e) → Raises hook e) ∧
    ∀ cs s e, members F hook n cs s = .error (.raised e) → Raises hook e := by
  have weak : ∀ {e : PyErr}, e = .valueError ∨ e = .other → Raises hook e := fun h => h.elim .inl (fun h => .inr (.inl h))
  induction n with
  | zero => refine ⟨?_, ?_, ?_⟩ <;> intro cs s e h <;> simp [value, elements, members] at h
  | succ n ih =>
    obtain ⟨ih1, ih2, ih3⟩ := ih
    refine ⟨?_, ?_, ?_⟩
    · intro cs s e h
      cases cs with
      | nil => simp only [value, Except.error.injEq, Stop.raised.injEq] at h; exact .inl h.symm
      | cons c r =>
        simp only [value] at h
        split at h
        · split at h
          · rename_i e' he
            simp only [Except.error.injEq] at h
            subst h
            exact weak (scanString_raises _ _ _ he)
          · simp at h
        · split at h
          · split at h
            · simp at h
            · split at h
              · rename_i e' he
                simp only [Except.error.injEq] at h
                subst h
                exact ih2 _ _ _ he
              · simp at h
          · split at h
            · split at h
              · exact close_raises hook h
              · split at h
                · rename_i e' he
                  simp only [Except.error.injEq] at h
                  subst h
                  exact ih3 _ _ _ he
                · exact close_raises hook h
              · simp only [Except.error.injEq, Stop.raised.injEq] at h; exact .inl h.symm
            · exact weak (atom_raises F h)
    · intro cs s e h
      simp only [elements] at h
      split at h
      · rename_i e' he
        simp only [Except.error.injEq] at h
        subst h
        exact ih1 _ _ _ he
      · split at h
        · simp at h
        · split at h
          · rename_i e' he
            simp only [Except.error.injEq] at h
            subst h
            exact ih2 _ _ _ he
          · simp at h
        · simp only [Except.error.injEq, Stop.raised.injEq] at h; exact .inl h.symm
    · intro cs s e h
      simp only [members] at h
      split at h
      · rename_i e' he
        simp only [Except.error.injEq] at h
        subst h
        exact weak (scanString_raises _ _ _ he)
      · split at h
        · split at h
          · rename_i e' he
            simp only [Except.error.injEq] at h
            subst h
            exact ih1 _ _ _ he
          · split at h
            · simp at h
            · split at h
              · split at h
                · rename_i e' he
                  simp only [Except.error.injEq] at h
                  subst h
                  exact ih3 _ _ _ he
                · simp at h
              · simp only [Except.error.injEq, Stop.raised.injEq] at h; exact .inl h.symm
            · simp only [Except.error.injEq, Stop.raised.injEq] at h; exact .inl h.symm
        · simp only [Except.error.injEq, Stop.raised.injEq] at h; exact .inl h.symm

/-- C75: a text that cannot be read is a JSONDecodeError, unless the hook raises something else (or the text is one of those that are not modelled). -/
theorem C75_raises (cs : List Char) (s : σ) (e : Stop) (h : readText F hook cs s = .error e) : ∃ e', e = .raised e' ∧ Raises hook e' := by
  cases e with
  | rounds => exact absurd h (C75_total cs s)
  | raised e =>
    refine ⟨e, rfl, ?_⟩
    unfold readText at h
    split at h
    · simp only [Except.error.injEq, Stop.raised.injEq] at h; exact .inl h.symm
    · split at h
      · rename_i e' he
        simp only [Except.error.injEq] at h
        subst h
        exact (value_raises F hook _).1 _ _ _ he
      · split at h
        · simp at h
        · simp only [Except.error.injEq, Stop.raised.injEq] at h; exact .inl h.symm
end

/-- C75: the letters of hexadecimal digits may be in either case. -/
theorem C75_hex (a b c d : Char) (r : List Char) : unit ('\\' :: 'u' :: a.toUpper :: b.toUpper :: c.toUpper :: d.toUpper :: r) = unit ('\\' :: 'u' :: a :: b :: c :: d :: r) := by
  have key : ∀ x : Char, hexVal x.toUpper = hexVal x := by
    intro x
    by_cases hx : 97 ≤ x.toNat ∧ x.toNat ≤ 122
    · have : ∀ n < 123, 97 ≤ n → hexVal (Char.ofNat n).toUpper = hexVal (Char.ofNat n) := by decide +kernel
      have := this x.toNat (by omega) hx.1
      rwa [Char.ofNat_toNat] at this
    · have : x.toUpper = x := by
        unfold Char.toUpper
        split
        · rename_i h
          exact absurd ⟨by have := h.1; exact this, by have := h.2; exact this⟩ hx
        · rfl
      rw [this]
  show (match hex4 (a.toUpper :: b.toUpper :: c.toUpper :: d.toUpper :: r) with | none => _ | some (n, r') => _) = (match hex4 (a :: b :: c :: d :: r) with | none => _ | some (n, r') => _)
  have : hex4 (a.toUpper :: b.toUpper :: c.toUpper :: d.toUpper :: r) = hex4 (a :: b :: c :: d :: r) := by
    simp only [hex4, key]
  rw [this]

example : unit "\\u00FFx".toList = .ok ('ÿ', ['x']) ∧ unit "\\uD83D\\uDe00".toList = .ok ('😀', []) := by decide +kernel

/-- C75: with `indent=4` there is a line for each item, four spaces further in, and no space before it ends; everything is ASCII. -/
theorem C75_indented : text someFloats .indented 0 (.dict [.str "a", .str "é"] [.list [.int 1, .none], .dict [] []]) =
    "{\n    \"a\": [\n        1,\n        null\n    ],\n    \"\\u00e9\": {}\n}".toList := by decide +kernel

end Verif.JsonText
