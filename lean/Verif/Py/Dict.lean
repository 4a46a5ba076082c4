/-!
# Python basics

Exceptions as values, and CPython's `dict` as an insertion-ordered association list.
`dict` itself is not part of the repository; its behaviour is taken from the Python language reference
(insertion order preserved, assignment to an existing key keeps the position and the key object).
-/

set_option linter.unusedSectionVars false

deriving instance DecidableEq for Except

namespace Verif.Py

/-- The exception classes the modelled code can raise. -/
inductive PyErr where
  | keyError | valueError | typeError | attributeError | assertionError | incompatibleUnits
  | indexError | undefinedUnit | defaultError | recursionError | other
  deriving DecidableEq, Repr

/-- CPython `dict`: entries in insertion order. -/
abbrev Dict (K V : Type _) := List (K × V)

namespace Dict
variable {K V W : Type _} [DecidableEq K]

/-- `d.get(k)` -/
def get? : Dict K V → K → Option V
  | [], _ => none
  | (k', v) :: d, k => if k' = k then some v else get? d k

/-- `d[k] = v` : replace in place or append at the end. -/
def set : Dict K V → K → V → Dict K V
  | [], k, v => [(k, v)]
  | (k', v') :: d, k, v => if k' = k then (k', v) :: d else (k', v') :: set d k v

/-- `del d[k]` when present (no effect otherwise). -/
def erase : Dict K V → K → Dict K V
  | [], _ => []
  | (k', v') :: d, k => if k' = k then d else (k', v') :: erase d k

/-- `k in d` -/
def has (d : Dict K V) (k : K) : Bool := (get? d k).isSome

/-- `list(d)` -/
def keys (d : Dict K V) : List K := d.map Prod.fst

/-- the class invariant of `dict`: no key twice -/
def WF (d : Dict K V) : Prop := (keys d).Nodup

/-- `dict(seq)` : assign in order, starting from `d`. -/
def setAll (d : Dict K V) : List (K × V) → Dict K V
  | [] => d
  | (k, v) :: l => setAll (set d k v) l

/-! ## lemmas -/

@[simp] theorem get?_nil (k : K) : get? ([] : Dict K V) k = none := rfl

theorem get?_set (d : Dict K V) (k k' : K) (v : V) :
    get? (set d k v) k' = if k = k' then some v else get? d k' := by
  induction d with
  | nil => simp [set, get?]
  | cons e d ih =>
    obtain ⟨a, b⟩ := e
    simp only [set]
    split
    · subst_vars; simp only [get?]; split <;> simp_all
    · simp only [get?, ih]; grind

@[simp] theorem get?_set_self (d : Dict K V) (k : K) (v : V) : get? (set d k v) k = some v := by
  simp [get?_set]

theorem mem_keys {d : Dict K V} {k : K} : k ∈ keys d ↔ ∃ v, (k, v) ∈ d := by
  simp [keys]

theorem get?_isSome_iff {d : Dict K V} {k : K} : (get? d k).isSome ↔ k ∈ keys d := by
  induction d with
  | nil => simp [keys]
  | cons e d ih =>
    obtain ⟨a, b⟩ := e
    simp only [get?, keys, List.map_cons, List.mem_cons] at *
    split <;> grind

theorem get?_eq_none_iff {d : Dict K V} {k : K} : get? d k = none ↔ k ∉ keys d := by
  rw [← get?_isSome_iff]; cases get? d k <;> simp

theorem mem_of_get? {d : Dict K V} {k : K} {v : V} (h : get? d k = some v) : (k, v) ∈ d := by
  induction d with
  | nil => simp at h
  | cons e d ih =>
    obtain ⟨a, b⟩ := e
    simp only [get?] at h
    split at h <;> grind

theorem get?_of_mem {d : Dict K V} (hd : WF d) {k : K} {v : V} (h : (k, v) ∈ d) :
    get? d k = some v := by
  induction d with
  | nil => simp at h
  | cons e d ih =>
    obtain ⟨a, b⟩ := e
    simp only [WF, keys, List.map_cons, List.nodup_cons, get?, List.mem_cons, Prod.mk.injEq] at *
    split
    · rcases h with h | h
      · simp [h.2]
      · subst_vars; exact absurd (List.mem_map_of_mem (f := Prod.fst) h) hd.1
    · rcases h with h | h
      · exact absurd h.1.symm ‹_›
      · exact ih hd.2 h

theorem mem_iff_get? {d : Dict K V} (hd : WF d) {k : K} {v : V} :
    (k, v) ∈ d ↔ get? d k = some v := ⟨get?_of_mem hd, mem_of_get?⟩

theorem keys_set (d : Dict K V) (k : K) (v : V) :
    keys (set d k v) = if k ∈ keys d then keys d else keys d ++ [k] := by
  induction d with
  | nil => simp [set, keys]
  | cons e d ih =>
    obtain ⟨a, b⟩ := e
    simp only [set, keys, List.map_cons, List.mem_cons] at *
    split
    · simp_all
    · rename_i h
      simp only [List.map_cons, ih]
      have : k ≠ a := fun h' => h h'.symm
      simp only [this, false_or]
      by_cases hk : k ∈ List.map Prod.fst d <;> simp [hk]

theorem WF_set {d : Dict K V} (hd : WF d) (k : K) (v : V) : WF (set d k v) := by
  unfold WF; rw [keys_set]; split
  · exact hd
  · rw [List.nodup_append]
    refine ⟨hd, by simp, ?_⟩
    intro a ha b hb; simp at hb; subst hb; intro h; subst h; contradiction

theorem mem_keys_set {d : Dict K V} {k k' : K} {v : V} :
    k' ∈ keys (set d k v) ↔ k' = k ∨ k' ∈ keys d := by
  rw [keys_set]; split <;> grind

theorem keys_erase (d : Dict K V) (k : K) : keys (erase d k) = (keys d).erase k := by
  induction d with
  | nil => simp [erase, keys]
  | cons e d ih =>
    obtain ⟨a, b⟩ := e
    simp only [erase, keys, List.map_cons, List.erase_cons] at *
    by_cases h : a = k <;> simp [h, ih]

theorem WF_erase {d : Dict K V} (hd : WF d) (k : K) : WF (erase d k) := by
  unfold WF; rw [keys_erase]; exact hd.erase k

theorem get?_erase {d : Dict K V} (hd : WF d) (k k' : K) :
    get? (erase d k) k' = if k = k' then none else get? d k' := by
  induction d with
  | nil => simp [erase]
  | cons e d ih =>
    obtain ⟨a, b⟩ := e
    have hd' := hd
    simp only [WF, keys, List.map_cons, List.nodup_cons] at hd'
    simp only [erase]
    by_cases h : a = k
    · subst h
      simp only [if_true, get?]
      by_cases h' : a = k'
      · subst h'
        simp only [if_true]
        exact get?_eq_none_iff.mpr hd'.1
      · simp [h']
    · simp only [h, if_false, get?, ih hd'.2]
      grind

theorem WF_setAll {d : Dict K V} (hd : WF d) (l : List (K × V)) : WF (setAll d l) := by
  induction l generalizing d with
  | nil => exact hd
  | cons e l ih => exact ih (WF_set hd _ _)

theorem WF_nil : WF ([] : Dict K V) := by simp [WF, keys]

theorem WF_setAll_nil (l : List (K × V)) : WF (setAll ([] : Dict K V) l) := WF_setAll WF_nil l

theorem mem_keys_setAll {d : Dict K V} {l : List (K × V)} {k : K} :
    k ∈ keys (setAll d l) ↔ k ∈ keys d ∨ k ∈ keys l := by
  induction l generalizing d with
  | nil => simp [setAll, keys]
  | cons e l ih =>
    obtain ⟨a, b⟩ := e
    simp only [setAll, ih, mem_keys_set]
    simp only [keys, List.map_cons, List.mem_cons]
    grind

theorem keys_append (a b : Dict K V) : keys (a ++ b) = keys a ++ keys b := by simp [keys]

theorem set_of_not_mem {d : Dict K V} {k : K} (h : k ∉ keys d) (v : V) : set d k v = d ++ [(k, v)] := by
  induction d with
  | nil => rfl
  | cons e d ih =>
    obtain ⟨a, b⟩ := e
    simp only [keys, List.map_cons, List.mem_cons, not_or] at h
    simp only [set, List.cons_append]
    rw [if_neg (fun h' => h.1 h'.symm), ih h.2]

/-- `dict(d) == d` including order: re-assigning every item of a well-formed dict rebuilds it. -/
theorem setAll_of_disjoint {d l : Dict K V} (h : (keys (d ++ l)).Nodup) : setAll d l = d ++ l := by
  induction l generalizing d with
  | nil => simp [setAll]
  | cons e l ih =>
    obtain ⟨a, b⟩ := e
    rw [keys_append] at h
    have ha : a ∉ keys d := by
      intro hm
      rw [List.nodup_append] at h
      exact h.2.2 a hm a (by simp [keys]) rfl
    simp only [setAll, set_of_not_mem ha]
    rw [ih]
    · simp
    · simpa [keys] using h

theorem setAll_nil_of_WF {d : Dict K V} (h : WF d) : setAll [] d = d := by
  simpa using setAll_of_disjoint (d := []) (l := d) (by simpa [WF] using h)

end Dict
end Verif.Py
