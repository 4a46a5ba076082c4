import Verif.Model.Schema
/-!
# Sets of strings as sorted lists
-/

set_option linter.unusedSimpArgs false

namespace Verif.Json
open Verif.Schema

/-- strictly increasing -/
def StrictStr (l : List String) : Prop := l.Pairwise (· < ·)

theorem mem_insertStr (s t : String) (l : List String) (h : t ∈ insertStr s l) : t = s ∨ t ∈ l := by
  induction l with
  | nil => simp [insertStr] at h; exact .inl h
  | cons a as ih =>
    simp only [insertStr] at h
    split at h
    · exact .inr h
    · split at h
      · rcases List.mem_cons.1 h with rfl | h
        · exact .inl rfl
        · exact .inr h
      · rcases List.mem_cons.1 h with rfl | h
        · exact .inr (by simp)
        · rcases ih h with h | h
          · exact .inl h
          · exact .inr (by simp [h])

theorem insertStr_strict (s : String) (l : List String) (h : StrictStr l) : StrictStr (insertStr s l) := by
  induction l with
  | nil => simp [insertStr, StrictStr]
  | cons a as ih =>
    unfold StrictStr at *
    rw [List.pairwise_cons] at h
    simp only [insertStr]
    split
    · rw [List.pairwise_cons]; exact h
    · split
      · rename_i hlt
        rw [List.pairwise_cons, List.pairwise_cons]
        refine ⟨?_, h⟩
        intro b hb
        rcases List.mem_cons.1 hb with rfl | hb
        · exact hlt
        · exact String.lt_trans hlt (h.1 b hb)
      · rename_i hne hlt
        rw [List.pairwise_cons]
        refine ⟨?_, ih h.2⟩
        intro b hb
        rcases mem_insertStr s b as hb with rfl | hb
        · have hle : a ≤ b := hlt
          exact Classical.byContradiction fun hn => hne (String.le_antisymm hn hle)
        · exact h.1 b hb

theorem sorted_strict (l : List String) : StrictStr (l.foldr insertStr []) := by
  induction l with
  | nil => simp [StrictStr]
  | cons a as ih => exact insertStr_strict a _ ih

theorem sort_of_strict (l : List String) (h : StrictStr l) : l.foldr insertStr [] = l := by
  induction l with
  | nil => rfl
  | cons a as ih =>
    unfold StrictStr at h
    rw [List.pairwise_cons] at h
    simp only [List.foldr_cons, ih h.2]
    cases as with
    | nil => rfl
    | cons b bs =>
      simp only [insertStr]
      have := h.1 b (by simp)
      rw [if_neg (by rintro rfl; exact String.lt_irrefl _ this), if_pos this]

end Verif.Json
