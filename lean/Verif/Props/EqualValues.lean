import Verif.Model.Equal
/-!
# C34: when lists, dictionaries and attribute objects are equal
-/

namespace Verif.Equal
open Verif.Py Verif.Value

variable {U : Nat → List (String × String)} {ent : Nat → Nat → Plain}

theorem and_true {p q : Plain} : p.and q = some (.ok true) ↔ p = some (.ok true) ∧ q = some (.ok true) := by
  unfold Plain.and
  rcases p with _ | _ | _ | _ <;> simp

theorem eqVs_true : ∀ {l l' : List V}, l.length = l'.length → (eqVs U ent l l' = some (.ok true) ↔ ∀ p ∈ l.zip l', eqV U ent p.1 p.2 = some (.ok true))
  | [], [], _ => by simp [eqVs]
  | v :: l, w :: l', h => by
    simp only [eqVs, and_true, List.zip_cons_cons, List.forall_mem_cons]
    rw [eqVs_true (by simpa using h)]

theorem eqItems_true {ks' vs' : List V} : ∀ {ks vs : List V}, (eqItems U ent ks' vs' ks vs = some (.ok true) ↔
    ∀ p ∈ ks.zip vs, ∃ w, Dict.get? (ks'.zip vs') p.1 = some w ∧ eqV U ent p.2 w = some (.ok true))
  | [], _ => by simp [eqItems]
  | _ :: _, [] => by simp [eqItems]
  | k :: ks, v :: vs => by
    simp only [eqItems, List.zip_cons_cons, List.forall_mem_cons]
    rw [← eqItems_true]
    cases h : Dict.get? (ks'.zip vs') k with
    | none => simp
    | some w => simp [and_true]

theorem eqAttrs_true {ns' : List String} {vs' : List V} : ∀ {ns : List String} {vs : List V}, (eqAttrs U ent ns' vs' ns vs = some (.ok true) ↔
    ∀ p ∈ ns.zip vs, ∃ w, Dict.get? (ns'.zip vs') p.1 = some w ∧ eqV U ent p.2 w = some (.ok true))
  | [], _ => by simp [eqAttrs]
  | _ :: _, [] => by simp [eqAttrs]
  | n :: ns, v :: vs => by
    simp only [eqAttrs, List.zip_cons_cons, List.forall_mem_cons]
    rw [← eqAttrs_true]
    cases h : Dict.get? (ns'.zip vs') n with
    | none => simp
    | some w => simp [and_true]

/-- C34: an attribute object, such as a value or bounds, is equal to another exactly if both have the same type and number of attributes, and the other has every attribute of the one, with
an equal value -/
theorem C34_objects (t t' : String) (ns ns' : List String) (vs vs' : List V) : eqV U ent (.obj t ns vs) (.obj t' ns' vs') = some (.ok true) ↔
    t = t' ∧ ns.length = ns'.length ∧ ∀ p ∈ ns.zip vs, ∃ w, Dict.get? (ns'.zip vs') p.1 = some w ∧ eqV U ent p.2 w = some (.ok true) := by
  simp only [eqV]
  split
  · rename_i h
    simp [eqAttrs_true, h.1, h.2]
  · rename_i h
    simp only [Option.some.injEq, Except.ok.injEq, Bool.false_eq_true, false_iff]
    exact fun g => h ⟨g.1, g.2.1⟩

/-- C34: lists are equal exactly if they are as long and their elements are equal one by one; so are tuples; dictionaries exactly if they have as many keys, and the other has every key of
the one, with an equal value; a list, a tuple and a dictionary are never equal to each other -/
theorem C34_containers (l l' ks ks' vs vs' : List V) :
    (eqV U ent (.list l) (.list l') = some (.ok true) ↔ l.length = l'.length ∧ ∀ p ∈ l.zip l', eqV U ent p.1 p.2 = some (.ok true)) ∧
    (eqV U ent (.tuple l) (.tuple l') = some (.ok true) ↔ l.length = l'.length ∧ ∀ p ∈ l.zip l', eqV U ent p.1 p.2 = some (.ok true)) ∧
    (eqV U ent (.dict ks vs) (.dict ks' vs') = some (.ok true) ↔
      ks.length = ks'.length ∧ ∀ p ∈ ks.zip vs, ∃ w, Dict.get? (ks'.zip vs') p.1 = some w ∧ eqV U ent p.2 w = some (.ok true)) ∧
    eqV U ent (.list l) (.tuple l') = some (.ok false) ∧ eqV U ent (.tuple l) (.list l') = some (.ok false) ∧ eqV U ent (.list l) (.dict ks vs) = some (.ok false) ∧
    eqV U ent (.dict ks vs) (.list l) = some (.ok false) ∧ eqV U ent (.tuple l) (.dict ks vs) = some (.ok false) ∧ eqV U ent (.dict ks vs) (.tuple l) = some (.ok false) := by
  refine ⟨?_, ?_, ?_, by simp [eqV], by simp [eqV], by simp [eqV], by simp [eqV], by simp [eqV], by simp [eqV]⟩
  · simp only [eqV]
    split
    · rename_i h; simp [eqVs_true h, h]
    · rename_i h; simp [h]
  · simp only [eqV]
    split
    · rename_i h; simp [eqVs_true h, h]
    · rename_i h; simp [h]
  · simp only [eqV]
    split
    · rename_i h; simp [eqItems_true, h]
    · rename_i h; simp [h]

/-- an attribute more or of another name makes the objects different -/
example : eqV (fun _ => []) (fun _ _ => none) (.obj "a" ["x", "y"] [.int 1, .int 2]) (.obj "a" ["y", "x"] [.float 2, .bool true]) = some (.ok true) ∧
    eqV (fun _ => []) (fun _ _ => none) (.obj "a" ["x", "y"] [.int 1, .int 2]) (.obj "a" ["x", "z"] [.int 1, .int 2]) = some (.ok false) := by decide +kernel

end Verif.Equal
