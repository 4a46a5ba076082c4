import Verif.Props.Markup
import Verif.Props.MangleRegex
/-!
# C70: the walks over the text do what the regular expressions of the source do
-/

set_option linter.unusedSimpArgs false

namespace Verif.Markup
open Verif.Strings Verif.Regex

theorem mem_aheadRe {c d : At} : d ∈ aheadRe.run c ↔ ahead c.rest = true ∧ d = c := by
  obtain ⟨pv, s, g⟩ := c
  simp only [aheadRe, Re.run]
  cases s with
  | nil => simp [ahead]
  | cons x xs =>
    by_cases hx : letter x = true
    · simp [hx, ahead]
    · by_cases hn : x = '\n' ∧ xs = []
      · obtain ⟨rfl, rfl⟩ := hn
        simp [ahead]
      · have h2 : ahead (x :: xs) = false := by
          cases he : ahead (x :: xs) with
          | false => rfl
          | true =>
            simp only [ahead, Bool.or_eq_true, hx, false_or, Bool.false_eq_true, Bool.and_eq_true, decide_eq_true_eq, List.isEmpty_iff] at he
            exact absurd he hn
        have h3 : ¬ (x :: xs = [] ∨ x :: xs = ['\n']) := by
          rintro (h | h)
          · cases h
          · cases h; exact hn ⟨rfl, rfl⟩
        simp [hx, h2, h3]
        intro e1 e2; exact absurd ⟨e1, e2⟩ hn

theorem mem_behindRe {c d : At} : d ∈ (Re.look fun b _ => b.any letter).run c ↔ behind c.prev = true ∧ d = c := by
  have e : c.prev.any letter = behind c.prev := by cases c.prev <;> rfl
  rw [run_look, e]
  split
  · rename_i h; simp [h]
  · rename_i h; simp [h]

theorem clean_here (pv : Option Char) (c : Char) (cs : List Char) : cleanRe.here pv (c :: cs) =
    if c = '1' ∧ behind pv = true ∧ ahead cs = true then some ⟨some c, cs, []⟩ else none := by
  apply here_eq
  intro d
  simp only [cleanRe, mem_seq, mem_behindRe]
  constructor
  · rintro ⟨e, ⟨h1, rfl⟩, f, hf, hd⟩
    rw [mem_lit] at hf
    obtain ⟨xs, h2, rfl⟩ := hf
    rw [mem_aheadRe] at hd
    cases h2
    rw [if_pos ⟨rfl, h1, hd.1⟩, hd.2]
  · intro h
    split at h
    · rename_i hc
      obtain ⟨rfl, h1, h2⟩ := hc
      cases h
      exact ⟨_, ⟨h1, rfl⟩, _, mem_lit.2 ⟨cs, rfl, rfl⟩, mem_aheadRe.2 ⟨h2, rfl⟩⟩
    · cases h

theorem clean_sub (s : List Char) : ∀ (n : Nat) (pv : Option Char), s.length ≤ n → cleanRe.subN (fun _ => []) n pv s = cleanFrom pv s := by
  induction s with
  | nil => intro n pv _; cases n <;> rfl
  | cons c cs ih =>
    intro n pv hn
    cases n with
    | zero => simp at hn
    | succ n =>
      simp only [List.length_cons, Nat.add_le_add_iff_right] at hn
      rw [Re.subN, clean_here, cleanFrom]
      split
      · rename_i h
        split at h
        · rename_i hc
          cases h
          rw [if_pos hc, ih n _ hn]
          rfl
        · cases h
      · rename_i h
        split at h
        · cases h
        · rename_i hc
          rw [if_neg hc, ih n _ hn]

theorem last_getLast (pv : Option Char) (c : Char) (t : List Char) : last pv (c :: t) = (c :: t).getLast? := by
  induction t generalizing pv c with
  | nil => rfl
  | cons d t ih => rw [last, ih, List.getLast?_cons_cons]

theorem latex_here {digit : Char → Bool} (hd : Digits digit) (pv : Option Char) (c : Char) (cs : List Char) : (latexRe digit).here pv (c :: cs) =
    if behind pv = true ∧ amountChar digit c = true ∧ ahead (cs.dropWhile (amountChar digit)) = true then
      some ⟨(c :: cs.takeWhile (amountChar digit)).getLast?, cs.dropWhile (amountChar digit), [(1, c :: cs.takeWhile (amountChar digit))]⟩ else none := by
  apply here_eq
  intro d
  simp only [latexRe, mem_seq, mem_behindRe, mem_group]
  constructor
  · rintro ⟨e, ⟨h1, rfl⟩, f, ⟨e', he', rfl⟩, hdd⟩
    rw [mem_plus] at he'
    obtain ⟨t, u, h2, h3, h4, rfl⟩ := he'
    rw [mem_aheadRe] at hdd
    obtain ⟨h5, rfl⟩ := hdd
    have hu : ∀ x xs, u = x :: xs → amountChar digit x = false := by
      rintro x xs rfl
      cases hx : amountChar digit x with
      | false => rfl
      | true =>
        have hx' : digit x = true ∨ x = '.' := by simpa [amountChar] using hx
        simp [ahead, amount_not_letter hd hx', amount_not_newline hd hx'] at h5
    cases t with
    | nil => exact absurd rfl h3
    | cons x t =>
      simp only [List.cons_append, List.cons.injEq] at h2
      obtain ⟨rfl, rfl⟩ := h2
      simp only [List.all_cons, Bool.and_eq_true] at h4
      obtain ⟨k1, k2⟩ := takeWhile_append h4.2 hu
      rw [k1, k2, if_pos ⟨h1, h4.1, h5⟩]
      have := take_used (c :: t) u
      simp only [List.cons_append] at this
      simp only [this, last_getLast]
  · intro h
    split at h
    · rename_i hc
      obtain ⟨h1, h2, h3⟩ := hc
      cases h
      have hs : c :: cs = (c :: cs.takeWhile (amountChar digit)) ++ cs.dropWhile (amountChar digit) := by
        rw [List.cons_append, List.takeWhile_append_dropWhile]
      refine ⟨_, ⟨h1, rfl⟩, _, ⟨_, mem_plus.2 ⟨_, _, hs, by simp, by simp [h2, all_takeWhile], rfl⟩, rfl⟩, ?_⟩
      rw [mem_aheadRe]
      refine ⟨h3, ?_⟩
      have := take_used (c :: cs.takeWhile (amountChar digit)) (cs.dropWhile (amountChar digit))
      rw [← hs] at this
      simp only [this, last_getLast]
    · cases h

theorem latex_sub {digit : Char → Bool} (hd : Digits digit) : ∀ (n : Nat) (s : List Char) (pv : Option Char), s.length ≤ n →
    (latexRe digit).subN (fun d => "$_{".toList ++ (d.get 1).getD [] ++ "}$".toList) n pv s = latexFrom digit pv s := by
  intro n
  induction n with
  | zero =>
    intro s pv h
    have : s = [] := List.length_eq_zero_iff.1 (by omega)
    subst this
    rw [latexFrom]
    rfl
  | succ n ih =>
    intro s pv h
    cases s with
    | nil => rw [latexFrom]; rfl
    | cons c cs =>
      simp only [List.length_cons, Nat.add_le_add_iff_right] at h
      have hl := (List.dropWhile_suffix (amountChar digit) (l := cs)).length_le
      rw [Re.subN, latex_here hd, latexFrom_cons]
      split
      · rename_i hh
        split at hh
        · rename_i hc
          cases hh
          rw [if_pos hc, ih _ _ (show (cs.dropWhile (amountChar digit)).length ≤ n by omega)]
          rfl
        · cases hh
      · rename_i hh
        split at hh
        · cases hh
        · rename_i hc
          rw [if_neg hc, ih _ _ h]

/-- C70: `formula_clean` and `formula_latex` as they are written, with `re.sub`. -/
theorem C70_expressions {digit : Char → Bool} (hd : Digits digit) (s : List Char) : clean s = cleanRe.sub (fun _ => []) s ∧
    latex digit s = (latexRe digit).sub (fun d => "$_{".toList ++ (d.get 1).getD [] ++ "}$".toList) (cleanRe.sub (fun _ => []) s) := by
  have h : cleanRe.sub (fun _ => []) s = clean s := clean_sub s _ _ (Nat.le_refl _)
  rw [h]
  exact ⟨rfl, (latex_sub hd _ _ _ (Nat.le_refl _)).symm⟩

example : (latexRe ascii).sub (fun d => "$_{".toList ++ (d.get 1).getD [] ++ "}$".toList) (cleanRe.sub (fun _ => []) "Ga1As0.5Sb11".toList) = "GaAs$_{0.5}$Sb$_{11}$".toList := by
  decide +kernel

end Verif.Markup
