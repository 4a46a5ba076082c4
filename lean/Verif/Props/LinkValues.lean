import Verif.Props.Link
import Verif.Model.Equal
/-!
# C32: comparisons of links and pairs with entities, among values
-/

namespace Verif.Link
open Verif.Py

/-- C32: a pair that does not begin with a text raises AttributeError when it is compared with an entity -/
theorem C32_pair_raises (lower : String → String) (u : Uids) (x i : Val) (h : ∀ s, x ≠ .str s) : entityEqTuple lower u [x, i] = .error .attributeError := by
  cases x with
  | str s => exact absurd rfl (h s)
  | _ => simp [entityEqTuple]

example : ∃ (x : Val), ∀ s, x ≠ .str s := ⟨.none, by simp⟩

end Verif.Link

namespace Verif.Equal
open Verif.Py Verif.Value

/-- C32, for values: a link or a pair of texts equals an entity, from either side, exactly if the first id of the entity whose scope is the same but for case is that of the link; no
comparison of these raises. -/
theorem C32_values (U : Nat → List (String × String)) (ent : Nat → Nat → Plain) (o : Nat) (s i : String) : ∃ b,
    eqV U ent (.ref o) (.link s i) = some (.ok b) ∧ eqV U ent (.link s i) (.ref o) = some (.ok b) ∧ eqV U ent (.ref o) (.tuple [.str s, .str i]) = some (.ok b) ∧
    eqV U ent (.tuple [.str s, .str i]) (.ref o) = some (.ok b) ∧
    (b = true ↔ ∃ before scope after, U o = before ++ (scope, i) :: after ∧ scope.toLower = s.toLower ∧ ∀ e ∈ before, e.1.toLower ≠ s.toLower) := by
  refine ⟨carries U o s i, by simp [eqV], by simp [eqV], by simp [eqV], by simp [eqV], ?_⟩
  unfold carries
  cases hf : (U o).find? (fun e => e.1.toLower == s.toLower) with
  | none =>
    rw [List.find?_eq_none] at hf
    simp only [Bool.false_eq_true, false_iff]
    rintro ⟨before, scope, after, h1, h2, -⟩
    exact hf (scope, i) (by rw [h1]; simp) (by simpa using h2)
  | some e =>
    obtain ⟨h1, before, after, h2, h3⟩ := List.find?_eq_some_iff_append.1 hf
    simp only [beq_iff_eq] at h1 h3 ⊢
    constructor
    · intro he
      exact ⟨before, e.1, after, by rw [h2, ← he], h1, fun x hx => by simpa using h3 x hx⟩
    · rintro ⟨before', scope, after', g1, g2, g3⟩
      have : (U o).find? (fun e => e.1.toLower == s.toLower) = some (scope, i) :=
        List.find?_eq_some_iff_append.2 ⟨by simpa using g2, before', after', g1, fun x hx => by simpa using g3 x hx⟩
      rw [hf] at this
      cases this
      rfl

/-- C32, for values: a link equals another, or a pair of texts, exactly if scope and id are the same, case included -/
theorem C32_link_values (U : Nat → List (String × String)) (ent : Nat → Nat → Plain) (s i t j : String) : ∃ b,
    eqV U ent (.link s i) (.link t j) = some (.ok b) ∧ eqV U ent (.link s i) (.tuple [.str t, .str j]) = some (.ok b) ∧
    eqV U ent (.tuple [.str t, .str j]) (.link s i) = some (.ok b) ∧ (b = true ↔ s = t ∧ i = j) :=
  ⟨s == t && i == j, by simp [eqV], by simp [eqV], by simp [eqV], by simp⟩

example : eqV (fun _ => [("ID", "x")]) (fun _ _ => none) (.ref 0) (.link "id" "x") = some (.ok true) := by decide +kernel

end Verif.Equal
