import Verif.Model.CIDict
/-!
# C01, C02: `CaseInsensitiveDict` behaves as one map keyed by the lower-cased key

The specification `Spec` is a single insertion-ordered list of (key, value) pairs searched by lower-cased key.
It knows nothing of the two dictionaries of the implementation.
-/

set_option linter.unusedSectionVars false

namespace Verif.CIDict
open Verif.Py

variable {K L V : Type} [DecidableEq K] [DecidableEq L]

/-! ## Specification -/
namespace Spec

/-- the entry whose key equals `k` up to case -/
def find (lower : K → L) (m : List (K × V)) (k : K) : Option (K × V) :=
  m.find? (fun e => decide (lower e.1 = lower k))

/-- all entries but the one whose key equals `k` up to case -/
def remove (lower : K → L) (m : List (K × V)) (k : K) : List (K × V) :=
  m.filter (fun e => decide (lower e.1 ≠ lower k))

/-- store: overwrite the value in place, append, or refuse (`none`) a differently cased key -/
def store (lower : K → L) (m : List (K × V)) (k : K) (v : V) : Option (List (K × V)) :=
  match find lower m k with
  | none => some (m ++ [(k, v)])
  | some (k', _) =>
    if k' = k then some (m.map (fun e => if e.1 = k then (k, v) else e)) else none

/-- store a whole batch, or refuse all of it -/
def storeAll (lower : K → L) (m : List (K × V)) : List (K × V) → Option (List (K × V))
  | [] => some m
  | (k, v) :: b => (store lower m k v).bind (fun m' => storeAll lower m' b)

/-- what each operation must do and answer -/
def step (lower : K → L) (m : List (K × V)) : Op K V → List (K × V) × Out K V
  | .setItem k v => match store lower m k v with
    | some m' => (m', .done)
    | none => (m, .raised .valueError)
  | .delItem k => match find lower m k with
    | some _ => (remove lower m k, .done)
    | none => (m, .raised .keyError)
  | .pop k => match find lower m k with
    | some e => (remove lower m k, .val e.2)
    | none => (m, .raised .keyError)
  | .popDefault k d => match find lower m k with
    | some e => (remove lower m k, .val e.2)
    | none => (m, .val d)
  | .popitem => match m.getLast? with
    | some e => (m.dropLast, .item e.1 e.2)
    | none => (m, .raised .keyError)
  | .clear => ([], .done)
  | .update b => match storeAll lower m b with
    | some m' => (m', .done)
    | none => (m, .raised .valueError)
  | .becomeCopy => (m, .done)
  | .getItem k => (m, match find lower m k with
    | some e => .val e.2
    | none => .raised .keyError)
  | .get k d => (m, match find lower m k with
    | some e => .val e.2
    | none => .val d)
  | .contains k => (m, .bool (find lower m k).isSome)
  | .items => (m, .items m)

def run (lower : K → L) (m : List (K × V)) : List (Op K V) → List (K × V) × List (Out K V)
  | [] => (m, [])
  | op :: ops =>
    let r := step lower m op
    let r' := run lower r.1 ops
    (r'.1, r.2 :: r'.2)

/-- no two entries whose keys differ only by case (nor equal keys) -/
def CaseDistinct (lower : K → L) (m : List (K × V)) : Prop := (m.map (fun e => lower e.1)).Nodup

end Spec

/-- A batch that does not itself contain one key in two casings. -/
def SelfConsistent (lower : K → L) (batch : List (K × V)) : Prop :=
  ∀ a ∈ batch, ∀ b ∈ batch, lower a.1 = lower b.1 → a.1 = b.1

instance (lower : K → L) (batch : List (K × V)) : Decidable (SelfConsistent lower batch) :=
  inferInstanceAs (Decidable (∀ a ∈ batch, ∀ b ∈ batch, _))

/-- The restriction on histories: every `update` batch is self-consistent. -/
def Op.OK (lower : K → L) : Op K V → Prop
  | .update b => SelfConsistent lower b
  | _ => True

instance (lower : K → L) (o : Op K V) : Decidable (o.OK lower) := by
  cases o <;> simp only [Op.OK] <;> infer_instance

/-! ## The refinement relation and helper lemmas -/

/-- `low` is exactly the index of `main` by lower-cased key. -/
structure Inv (lower : K → L) (s : St K L V) : Prop where
  distinct : Spec.CaseDistinct lower s.main
  lowWF : s.low.WF
  low_get : ∀ l k, s.low.get? l = some k ↔ k ∈ s.main.keys ∧ lower k = l

section lemmas
variable {lower : K → L} {s : St K L V}

theorem CaseDistinct.inj {m : List (K × V)} (h : Spec.CaseDistinct lower m) {a b : K × V}
    (ha : a ∈ m) (hb : b ∈ m) (hab : lower a.1 = lower b.1) : a = b := by
  induction m with
  | nil => simp at ha
  | cons e m ih =>
    simp only [Spec.CaseDistinct, List.map_cons, List.nodup_cons, List.mem_map, not_exists, not_and] at h
    simp only [List.mem_cons] at ha hb
    rcases ha with rfl | ha <;> rcases hb with rfl | hb
    · rfl
    · exact absurd hab.symm (h.1 b hb)
    · exact absurd hab (h.1 a ha)
    · exact ih h.2 ha hb

theorem CaseDistinct.WF {m : List (K × V)} (h : Spec.CaseDistinct lower m) : Dict.WF m := by
  induction m with
  | nil => simp [Dict.WF, Dict.keys]
  | cons e m ih =>
    simp only [Spec.CaseDistinct, List.map_cons, List.nodup_cons, List.mem_map, not_exists, not_and,
      Dict.WF, Dict.keys] at *
    exact ⟨fun x hx hxe => h.1 x hx (by rw [hxe]), ih h.2⟩

theorem find_some_iff {m : List (K × V)} (h : Spec.CaseDistinct lower m) {k : K} {e : K × V} :
    Spec.find lower m k = some e ↔ e ∈ m ∧ lower e.1 = lower k := by
  unfold Spec.find
  constructor
  · intro hf
    exact ⟨List.mem_of_find?_eq_some hf, by simpa using List.find?_some hf⟩
  · rintro ⟨hm, hl⟩
    cases hf : m.find? (fun e => decide (lower e.1 = lower k)) with
    | none =>
      rw [List.find?_eq_none] at hf
      exact absurd (by simpa using hl) (hf e hm)
    | some e' =>
      have h1 := List.mem_of_find?_eq_some hf
      have h2 := List.find?_some hf
      simp only [decide_eq_true_eq] at h2
      rw [CaseDistinct.inj h h1 hm (h2.trans hl.symm)]

theorem find_none_iff {m : List (K × V)} {k : K} :
    Spec.find lower m k = none ↔ ∀ e ∈ m, lower e.1 ≠ lower k := by
  unfold Spec.find; rw [List.find?_eq_none]; simp

/-- the lower-case dictionary answers as the specification's search does -/
theorem Inv.low_eq (h : Inv lower s) (k : K) :
    s.low.get? (lower k) = (Spec.find lower s.main k).map Prod.fst := by
  cases hf : Spec.find lower s.main k with
  | none =>
    rw [find_none_iff] at hf
    cases hl : s.low.get? (lower k) with
    | none => rfl
    | some k' =>
      rw [h.low_get] at hl
      obtain ⟨v, hv⟩ := Dict.mem_keys.mp hl.1
      exact absurd hl.2 (hf _ hv)
  | some e =>
    obtain ⟨hm, hl⟩ := (find_some_iff h.distinct).mp hf
    simp only [Option.map_some]
    rw [h.low_get]
    exact ⟨Dict.mem_keys.mpr ⟨e.2, hm⟩, hl⟩

theorem Inv.main_get (h : Inv lower s) {k : K} {e : K × V} (hf : Spec.find lower s.main k = some e) :
    s.main.get? e.1 = some e.2 :=
  Dict.get?_of_mem (CaseDistinct.WF h.distinct) ((find_some_iff h.distinct).mp hf).1

theorem mem_erase {d : Dict K V} (hd : d.WF) {k : K} {e : K × V} :
    e ∈ d.erase k ↔ e ∈ d ∧ e.1 ≠ k := by
  obtain ⟨a, b⟩ := e
  rw [Dict.mem_iff_get? (Dict.WF_erase hd k), Dict.get?_erase hd, Dict.mem_iff_get? hd]
  by_cases hk : k = a
  · simp [hk]
  · have : a ≠ k := fun h => hk h.symm
    simp [hk, this]

/-- erasing by the stored key is what the specification's `remove` does -/
theorem erase_eq_remove {m : List (K × V)} (h : Spec.CaseDistinct lower m) {k : K} {e : K × V}
    (hf : Spec.find lower m k = some e) : Dict.erase m e.1 = Spec.remove lower m k := by
  obtain ⟨hm, hl⟩ := (find_some_iff h).mp hf
  clear hf
  induction m with
  | nil => simp at hm
  | cons a m ih =>
    have h' := h
    simp only [Spec.CaseDistinct, List.map_cons, List.nodup_cons, List.mem_map, not_exists, not_and] at h'
    obtain ⟨a1, a2⟩ := a
    simp only [Dict.erase, Spec.remove, List.filter_cons]
    by_cases hae : a1 = e.1
    · subst hae
      simp only [if_true, hl]
      simp only [ne_eq, not_true_eq_false, decide_false, Bool.false_eq_true, if_false]
      symm
      rw [List.filter_eq_self]
      intro x hx
      have := h'.1 x hx
      simp only [hl] at this
      simpa using this
    · simp only [hae, if_false]
      simp only [List.mem_cons] at hm
      rcases hm with hm | hm
      · exact absurd (by rw [hm]) hae
      · have hne : lower a1 ≠ lower k := by
          intro hh
          have := h'.1 e hm
          exact this (by rw [hl, hh])
        have := ih h'.2 hm
        simp only [Spec.remove] at this
        simp [hne, this]

theorem CaseDistinct.remove {m : List (K × V)} (h : Spec.CaseDistinct lower m) (k : K) :
    Spec.CaseDistinct lower (Spec.remove lower m k) := by
  unfold Spec.CaseDistinct Spec.remove at *
  exact List.Nodup.sublist (List.filter_sublist.map _) h

theorem Inv.remove (h : Inv lower s) {k : K} {e : K × V} (hf : Spec.find lower s.main k = some e) :
    Inv lower { main := s.main.erase e.1, low := s.low.erase (lower k) } := by
  obtain ⟨hm, hl⟩ := (find_some_iff h.distinct).mp hf
  refine ⟨?_, Dict.WF_erase h.lowWF _, ?_⟩
  · show Spec.CaseDistinct lower (Dict.erase s.main e.1)
    rw [erase_eq_remove h.distinct hf]; exact CaseDistinct.remove h.distinct k
  · intro l k'
    show (s.low.erase (lower k)).get? l = some k' ↔ k' ∈ (s.main.erase e.1).keys ∧ lower k' = l
    rw [Dict.get?_erase h.lowWF, Dict.mem_keys]
    have hW := CaseDistinct.WF h.distinct
    split
    · rename_i hkl
      constructor
      · intro hx; cases hx
      · rintro ⟨⟨v, hv⟩, hlk⟩
        rw [mem_erase hW] at hv
        have := CaseDistinct.inj h.distinct hv.1 hm (by simp only [hl, hkl, hlk])
        exact absurd (by rw [← this]) hv.2
    · rename_i hkl
      rw [h.low_get, Dict.mem_keys]
      constructor
      · rintro ⟨⟨v, hv⟩, hlk⟩
        exact ⟨⟨v, (mem_erase hW).mpr ⟨hv, fun hh => hkl (by rw [← hl, ← hh, hlk])⟩⟩, hlk⟩
      · rintro ⟨⟨v, hv⟩, hlk⟩
        exact ⟨⟨v, ((mem_erase hW).mp hv).1⟩, hlk⟩

theorem map_set {m : List (K × V)} {k : K} {v : V} (hW : Dict.WF m) (hk : k ∈ Dict.keys m) :
    Dict.set m k v = m.map (fun e => if e.1 = k then (k, v) else e) := by
  induction m with
  | nil => simp [Dict.keys] at hk
  | cons a m ih =>
    obtain ⟨a1, a2⟩ := a
    simp only [Dict.WF, Dict.keys, List.map_cons, List.nodup_cons, List.mem_cons] at hW hk
    simp only [Dict.set, List.map_cons]
    by_cases hak : a1 = k
    · subst hak
      simp only [if_true, List.cons.injEq, true_and]
      symm
      conv => rhs; rw [← List.map_id m]
      apply List.map_congr_left
      intro e he
      have : e.1 ≠ a1 := fun hh => hW.1 (List.mem_map.mpr ⟨e, he, hh⟩)
      simp [this]
    · simp only [hak, if_false]
      rw [ih hW.2 (by rcases hk with hk | hk; exact absurd hk.symm hak; exact hk)]

/-- a successful store on both sides -/
theorem Inv.store (h : Inv lower s) {k : K} {v : V} {m' : List (K × V)}
    (hs : Spec.store lower s.main k v = some m') :
    Inv lower { main := m', low := s.low.set (lower k) k } ∧ s.main.set k v = m' := by
  have hW := CaseDistinct.WF h.distinct
  unfold Spec.store at hs
  cases hf : Spec.find lower s.main k with
  | none =>
    rw [hf] at hs
    simp only [Option.some.injEq] at hs
    subst hs
    rw [find_none_iff] at hf
    have hk : k ∉ Dict.keys s.main := by
      intro hk
      obtain ⟨w, hw⟩ := Dict.mem_keys.mp hk
      exact hf _ hw rfl
    refine ⟨⟨?_, Dict.WF_set h.lowWF _ _, ?_⟩, Dict.set_of_not_mem hk v⟩
    · show Spec.CaseDistinct lower (s.main ++ [(k, v)])
      unfold Spec.CaseDistinct
      rw [List.map_append, List.nodup_append]
      refine ⟨h.distinct, by simp, ?_⟩
      intro a ha b hb hab
      obtain ⟨e, he, rfl⟩ := List.mem_map.mp ha
      simp only [List.map_cons, List.map_nil, List.mem_singleton] at hb
      exact hf e he (by rw [hab, hb])
    · intro l k'
      show (s.low.set (lower k) k).get? l = some k' ↔ k' ∈ Dict.keys (s.main ++ [(k, v)]) ∧ lower k' = l
      rw [Dict.get?_set, Dict.keys_append, List.mem_append]
      simp only [Dict.keys, List.map_cons, List.map_nil, List.mem_singleton]
      split
      · rename_i hkl
        simp only [Option.some.injEq]
        constructor
        · rintro rfl; exact ⟨Or.inr rfl, hkl⟩
        · rintro ⟨hk' | hk', hl'⟩
          · obtain ⟨e, he, hek⟩ := List.mem_map.mp hk'
            exact absurd (by rw [hek, hl', hkl]) (hf e he)
          · exact hk'.symm
      · rename_i hkl
        have h2 := h.low_get l k'
        simp only [Dict.keys] at h2
        rw [h2]
        constructor
        · rintro ⟨a, b⟩; exact ⟨Or.inl a, b⟩
        · rintro ⟨a | a, b⟩
          · exact ⟨a, b⟩
          · exact absurd (by rw [← a, b]) hkl
  | some e =>
    rw [hf] at hs
    obtain ⟨k0, v0⟩ := e
    simp only at hs
    split at hs
    · rename_i hkk
      subst hkk
      simp only [Option.some.injEq] at hs
      subst hs
      obtain ⟨hm, -⟩ := (find_some_iff h.distinct).mp hf
      have hk : k0 ∈ Dict.keys s.main := Dict.mem_keys.mpr ⟨_, hm⟩
      have hmap := map_set (v := v) hW hk
      have hkeys : Dict.keys (s.main.map (fun e => if e.1 = k0 then (k0, v) else e)) = Dict.keys s.main := by
        rw [← hmap, Dict.keys_set, if_pos hk]
      refine ⟨⟨?_, Dict.WF_set h.lowWF _ _, ?_⟩, hmap⟩
      · have h1 : ∀ m : List (K × V), m.map (fun e => lower e.1) = (Dict.keys m).map lower := by
          intro m; simp [Dict.keys]
        have h2 := h.distinct
        unfold Spec.CaseDistinct at *
        rw [h1] at h2
        show (List.map (fun e => lower e.1) (s.main.map (fun e => if e.1 = k0 then (k0, v) else e))).Nodup
        rw [h1, hkeys]
        exact h2
      · intro l k'
        show (s.low.set (lower k0) k0).get? l = some k' ↔
          k' ∈ Dict.keys (s.main.map (fun e => if e.1 = k0 then (k0, v) else e)) ∧ lower k' = l
        rw [hkeys, Dict.get?_set, ← h.low_get]
        split
        · rename_i hkl
          subst hkl
          rw [(h.low_get (lower k0) k0).mpr ⟨hk, rfl⟩]
        · rfl
    · cases hs

theorem register_eq (h : Inv lower s) (k : K) (v : V) :
    register lower s.low k = match Spec.store lower s.main k v with
      | some _ => .ok (s.low.set (lower k) k)
      | none => .error .valueError := by
  unfold register Spec.store
  rw [h.low_eq]
  cases Spec.find lower s.main k with
  | none => simp
  | some e =>
    simp only [Option.map_some]
    by_cases hk : e.1 = k <;> simp [hk]

theorem conflicts_eq (h : Inv lower s) (k : K) (v : V) :
    conflicts lower s.low k = (Spec.store lower s.main k v).isNone := by
  unfold conflicts Spec.store
  rw [h.low_eq]
  cases Spec.find lower s.main k with
  | none => simp
  | some e =>
    simp only [Option.map_some]
    by_cases hk : e.1 = k <;> simp [hk]

/-- whether a key can be stored depends only on the keys present up to case -/
theorem store_isNone_iff {m : List (K × V)} (h : Spec.CaseDistinct lower m) {k : K} {v : V} :
    Spec.store lower m k v = none ↔ ∃ e ∈ m, lower e.1 = lower k ∧ e.1 ≠ k := by
  unfold Spec.store
  cases hf : Spec.find lower m k with
  | none =>
    rw [find_none_iff] at hf
    simp only [false_iff, not_exists, not_and, reduceCtorEq]
    intro e he hl
    exact absurd hl (hf e he)
  | some e =>
    obtain ⟨hm, hl⟩ := (find_some_iff h).mp hf
    simp only
    by_cases hk : e.1 = k
    · simp only [hk, if_true, false_iff, not_exists, not_and, reduceCtorEq]
      intro e' he' hl'
      have := CaseDistinct.inj h hm he' (hl.trans hl'.symm)
      rw [← this]; simp [hk]
    · simp only [hk, if_false, true_iff]
      exact ⟨e, hm, hl, hk⟩

theorem keys_store {m m' : List (K × V)} {k : K} {v : V} (hs : Spec.store lower m k v = some m') (k' : K) :
    (k' ∈ m'.map Prod.fst) ↔ k' = k ∨ k' ∈ m.map Prod.fst := by
  unfold Spec.store at hs
  cases hf : Spec.find lower m k with
  | none =>
    rw [hf] at hs; simp only [Option.some.injEq] at hs; subst hs
    simp only [List.map_append, List.mem_append, List.map_cons, List.map_nil, List.mem_singleton]
    grind
  | some e =>
    rw [hf] at hs
    have hm := List.mem_of_find?_eq_some hf
    simp only at hs
    split at hs
    · rename_i hk
      simp only [Option.some.injEq] at hs; subst hs
      have : (m.map (fun e => if e.1 = k then (k, v) else e)).map Prod.fst = m.map Prod.fst := by
        rw [List.map_map]
        apply List.map_congr_left
        intro a ha
        simp only [Function.comp]
        by_cases hak : a.1 = k <;> simp [hak]
      rw [this]
      constructor
      · exact Or.inr
      · rintro (rfl | h')
        · exact List.mem_map.mpr ⟨e, hm, hk⟩
        · exact h'
    · cases hs

/-- the batch loop, when nothing conflicts -/
theorem update_ok {b : List (K × V)} (h : Inv lower s) (hb : SelfConsistent lower b)
    (hc : ∀ e ∈ b, ∀ e' ∈ s.main, lower e'.1 = lower e.1 → e'.1 = e.1) :
    ∃ m', Spec.storeAll lower s.main b = some m' ∧
      (registerAll lower s.low (b.map Prod.fst)).2 = .ok () ∧
      s.main.setAll b = m' ∧
      Inv lower { main := m', low := (registerAll lower s.low (b.map Prod.fst)).1 } := by
  induction b generalizing s with
  | nil => exact ⟨s.main, rfl, rfl, rfl, h⟩
  | cons e b ih =>
    obtain ⟨k, v⟩ := e
    have hst : Spec.store lower s.main k v ≠ none := by
      rw [Ne, store_isNone_iff h.distinct]
      rintro ⟨e, he, hl, hne⟩
      exact hne (hc (k, v) (by simp) e he hl)
    obtain ⟨m1, hm1⟩ := Option.ne_none_iff_exists'.mp hst
    obtain ⟨hInv, hset⟩ := h.store hm1
    have hreg := register_eq h k v
    rw [hm1] at hreg
    simp only at hreg
    have hb' : SelfConsistent lower b := fun x hx y hy hxy =>
      hb x (List.mem_cons_of_mem _ hx) y (List.mem_cons_of_mem _ hy) hxy
    have hc' : ∀ e ∈ b, ∀ e' ∈ m1, lower e'.1 = lower e.1 → e'.1 = e.1 := by
      intro e he e' he' hl
      have : e'.1 ∈ m1.map Prod.fst := List.mem_map_of_mem he'
      rw [keys_store hm1] at this
      rcases this with hk | hk
      · have := hb (k, v) (by simp) e (List.mem_cons_of_mem _ he) (by rw [← hk]; exact hl)
        rw [hk]; exact this
      · obtain ⟨e'', he'', hee⟩ := List.mem_map.mp hk
        have := hc e (List.mem_cons_of_mem _ he) e'' he'' (by rw [hee]; exact hl)
        rw [← hee]; exact this
    obtain ⟨m', h1, h2, h3, h4⟩ := ih (s := { main := m1, low := s.low.set (lower k) k }) hInv hb' hc'
    refine ⟨m', ?_, ?_, ?_, ?_⟩
    · simp only [Spec.storeAll, hm1, Option.bind_some]; exact h1
    · simp only [List.map_cons, registerAll, hreg]; exact h2
    · simp only [Dict.setAll, hset]; exact h3
    · simp only [List.map_cons, registerAll, hreg]; exact h4

theorem storeAll_none {b : List (K × V)} {m : List (K × V)} (h : Spec.CaseDistinct lower m)
    {e e' : K × V} (he : e ∈ b) (he' : e' ∈ m) (hl : lower e'.1 = lower e.1) (hne : e'.1 ≠ e.1) :
    Spec.storeAll lower m b = none := by
  induction b generalizing m e' with
  | nil => simp at he
  | cons a b ih =>
    obtain ⟨k, v⟩ := a
    simp only [Spec.storeAll]
    cases hs : Spec.store lower m k v with
    | none => rfl
    | some m1 =>
      simp only [Option.bind_some]
      rcases List.mem_cons.mp he with rfl | hb
      · have := (store_isNone_iff (v := v) h).mpr ⟨e', he', hl, hne⟩
        rw [this] at hs; cases hs
      · have hk : e'.1 ∈ m1.map Prod.fst := (keys_store hs _).mpr (Or.inr (List.mem_map_of_mem he'))
        obtain ⟨e2, he2, hee⟩ := List.mem_map.mp hk
        have hI : Inv lower { main := m, low := (m.map (fun e => (lower e.1, e.1)) : Dict L K) } := by
          have hkeys : Dict.keys (m.map (fun e => (lower e.1, e.1))) = m.map (fun e => lower e.1) := by
            simp [Dict.keys, Function.comp_def]
          have hw : Dict.WF (m.map (fun e => (lower e.1, e.1))) := by
            unfold Dict.WF; rw [hkeys]; exact h
          refine ⟨h, hw, ?_⟩
          intro l k'
          show Dict.get? (m.map (fun e => (lower e.1, e.1))) l = some k' ↔ k' ∈ Dict.keys m ∧ lower k' = l
          rw [← Dict.mem_iff_get? hw, Dict.mem_keys]
          simp only [List.mem_map, Prod.mk.injEq, Prod.exists]
          constructor
          · rintro ⟨a, b, hab, rfl, rfl⟩; exact ⟨⟨b, hab⟩, rfl⟩
          · rintro ⟨⟨v, hv⟩, rfl⟩; exact ⟨k', v, hv, rfl, rfl⟩
        exact ih (hI.store hs).1.distinct (e' := e2) hb he2 (by rw [hee]; exact hl) (by rw [hee]; exact hne)

theorem inv_init {items : List (K × V)} (hc : SelfConsistent lower items) :
    ∃ s, init lower items = .ok s ∧ s.main = Dict.setAll [] items ∧ Inv lower s := by
  have hI0 : Inv lower ({ main := [], low := [] } : St K L V) :=
    ⟨by simp [Spec.CaseDistinct], Dict.WF_nil, by simp [Dict.keys]⟩
  have hsub : ∀ e ∈ Dict.setAll [] items, e.1 ∈ items.map Prod.fst := by
    intro e he
    have : e.1 ∈ Dict.keys (Dict.setAll [] items) := List.mem_map_of_mem he
    rw [Dict.mem_keys_setAll] at this
    rcases this with h | h
    · simp [Dict.keys] at h
    · exact h
  have hc' : SelfConsistent lower (Dict.setAll [] items) := by
    intro a ha b hb hab
    obtain ⟨x, hx, hxa⟩ := List.mem_map.mp (hsub a ha)
    obtain ⟨y, hy, hyb⟩ := List.mem_map.mp (hsub b hb)
    have := hc x hx y hy (by rw [hxa, hyb]; exact hab)
    rw [← hxa, ← hyb]; exact this
  obtain ⟨m', h1, h2, h3, h4⟩ := update_ok hI0 hc' (by simp)
  simp only at h1 h2 h3 h4
  rw [Dict.setAll_nil_of_WF (Dict.WF_setAll_nil items)] at h3
  refine ⟨{ main := Dict.setAll [] items,
            low := (registerAll lower [] ((Dict.setAll [] items).map Prod.fst)).1 }, ?_, rfl, ?_⟩
  · unfold init
    simp only [Dict.keys]
    generalize registerAll lower [] ((Dict.setAll [] items).map Prod.fst) = r at h2
    obtain ⟨r1, r2⟩ := r
    simp only at h2
    subst h2
    rfl
  · rw [← h3] at h4; exact h4

theorem low_has_iff (h : Inv lower s) (k : K) :
    contains lower s k = (Spec.find lower s.main k).isSome := by
  unfold contains Dict.has
  rw [h.low_eq]; cases Spec.find lower s.main k <;> rfl

theorem CaseDistinct.selfConsistent {m : List (K × V)} (h : Spec.CaseDistinct lower m) :
    SelfConsistent lower m := fun a ha b hb hab => by rw [CaseDistinct.inj h ha hb hab]

/-- one step: same observation, related states -/
theorem step_refines (h : Inv lower s) (op : Op K V) (hop : op.OK lower) :
    (step lower s op).2 = (Spec.step lower s.main op).2 ∧
    (step lower s op).1.main = (Spec.step lower s.main op).1 ∧
    Inv lower (step lower s op).1 := by
  have hlow := h.low_eq
  cases op with
  | setItem k v =>
    simp only [step, Spec.step, setItem, register_eq h k v]
    cases hs : Spec.store lower s.main k v with
    | none => exact ⟨by trivial, by trivial, h⟩
    | some m' =>
      obtain ⟨h1, h2⟩ := h.store hs
      simp only [h2]
      exact ⟨by trivial, by trivial, h1⟩
  | delItem k =>
    simp only [step, Spec.step, delItem, hlow]
    cases hf : Spec.find lower s.main k with
    | none =>
      have : s.main.has k = false := by
        rw [find_none_iff] at hf
        unfold Dict.has
        rw [Option.isSome_eq_false_iff, Option.isNone_iff_eq_none, Dict.get?_eq_none_iff]
        intro hk
        obtain ⟨v, hv⟩ := Dict.mem_keys.mp hk
        exact hf _ hv rfl
      simp only [Option.map_none, Option.getD_none, this]
      exact ⟨by trivial, by trivial, h⟩
    | some e =>
      have hme := h.main_get hf
      obtain ⟨hm, hl⟩ := (find_some_iff h.distinct).mp hf
      have h1 : s.main.has e.1 = true := by simp [Dict.has, hme]
      have h2 : s.low.has (lower e.1) = true := by
        unfold Dict.has; rw [hl, hlow, hf]; rfl
      simp only [Option.map_some, Option.getD_some, h1, h2, if_true]
      refine ⟨by trivial, ?_, ?_⟩
      · exact erase_eq_remove h.distinct hf
      · rw [hl]; exact h.remove hf
  | pop k =>
    simp only [step, Spec.step, pop, hlow]
    cases hf : Spec.find lower s.main k with
    | none => exact ⟨by trivial, by trivial, h⟩
    | some e =>
      simp only [Option.map_some, h.main_get hf]
      exact ⟨by trivial, erase_eq_remove h.distinct hf, h.remove hf⟩
  | popDefault k d =>
    simp only [step, Spec.step, popDefault, hlow]
    cases hf : Spec.find lower s.main k with
    | none => exact ⟨by trivial, by trivial, h⟩
    | some e =>
      simp only [Option.map_some, h.main_get hf]
      exact ⟨by trivial, erase_eq_remove h.distinct hf, h.remove hf⟩
  | popitem =>
    simp only [step, Spec.step, popitem]
    cases hg : s.main.getLast? with
    | none => exact ⟨by trivial, by trivial, h⟩
    | some e =>
      obtain ⟨k, v⟩ := e
      obtain ⟨ys, hys⟩ := List.getLast?_eq_some_iff.mp hg
      have hm : (k, v) ∈ s.main := by rw [hys]; simp
      have hf : Spec.find lower s.main k = some (k, v) := (find_some_iff h.distinct).mpr ⟨hm, rfl⟩
      have h2 : s.low.has (lower k) = true := by
        unfold Dict.has; rw [hlow, hf]; rfl
      have hdl : s.main.dropLast = s.main.erase k := by
        have hnd := CaseDistinct.WF h.distinct
        rw [hys] at hnd ⊢
        rw [List.dropLast_concat]
        clear hys hg hm hf h2 hlow h
        induction ys with
        | nil => simp [Dict.erase]
        | cons y ys ih =>
          obtain ⟨y1, y2⟩ := y
          simp only [Dict.WF, Dict.keys, List.cons_append, List.map_cons, List.nodup_cons, List.map_append,
            List.mem_append, List.map_nil, List.mem_singleton, not_or] at hnd
          simp only [List.cons_append, Dict.erase, hnd.1.2, if_false]
          rw [← ih]
          simp only [Dict.WF, Dict.keys, List.map_append, List.map_cons, List.map_nil]
          exact hnd.2
      simp only [h2, if_true]
      refine ⟨by trivial, by trivial, ?_⟩
      rw [hdl]; exact h.remove hf
  | clear =>
    refine ⟨by trivial, by trivial, ⟨?_, Dict.WF_nil, ?_⟩⟩
    · simp [step, clear, Spec.CaseDistinct]
    · simp [step, clear, Dict.keys]
  | update b =>
    simp only [Op.OK] at hop
    simp only [step, Spec.step, update]
    by_cases hc : ∀ e ∈ b, ∀ e' ∈ s.main, lower e'.1 = lower e.1 → e'.1 = e.1
    · obtain ⟨m', h1, h2, h3, h4⟩ := update_ok h hop hc
      have hany : (b.map Prod.fst).any (conflicts lower s.low) = false := by
        rw [List.any_eq_false]
        intro k hk
        obtain ⟨e, he, rfl⟩ := List.mem_map.mp hk
        rw [conflicts_eq h e.1 e.2, Option.isNone_iff_eq_none, store_isNone_iff h.distinct]
        rintro ⟨e', he', hl, hne⟩
        exact hne (hc e he e' he' hl)
      simp only [hany, Bool.false_eq_true, if_false, h1, h2, h3]
      exact ⟨by trivial, by trivial, h4⟩
    · simp only [Classical.not_forall] at hc
      obtain ⟨e, he, e', he', hl, hne⟩ := hc
      have hany : (b.map Prod.fst).any (conflicts lower s.low) = true := by
        rw [List.any_eq_true]
        refine ⟨e.1, List.mem_map_of_mem he, ?_⟩
        rw [conflicts_eq h e.1 e.2, Option.isNone_iff_eq_none, store_isNone_iff h.distinct]
        exact ⟨e', he', hl, hne⟩
      rw [storeAll_none h.distinct he he' hl hne]
      simp only [hany, if_true]
      exact ⟨by trivial, by trivial, h⟩
  | becomeCopy =>
    simp only [step, Spec.step, copy]
    obtain ⟨s', h1, h2, h3⟩ := inv_init (lower := lower) (CaseDistinct.selfConsistent h.distinct)
    rw [h1]
    refine ⟨by trivial, ?_, h3⟩
    simp only [h2]
    exact Dict.setAll_nil_of_WF (CaseDistinct.WF h.distinct)
  | getItem k =>
    simp only [step, Spec.step, getItem, hlow]
    cases hf : Spec.find lower s.main k with
    | none => exact ⟨by trivial, by trivial, h⟩
    | some e => simp only [Option.map_some, h.main_get hf]; exact ⟨by trivial, by trivial, h⟩
  | get k d =>
    simp only [step, Spec.step, get, low_has_iff h, getItem, hlow]
    cases hf : Spec.find lower s.main k with
    | none => exact ⟨by trivial, by trivial, h⟩
    | some e =>
      simp only [Option.map_some, h.main_get hf, Option.isSome_some, if_true]; exact ⟨by trivial, by trivial, h⟩
  | contains k =>
    simp only [step, Spec.step, low_has_iff h]; exact ⟨by trivial, by trivial, h⟩
  | items => exact ⟨by trivial, by trivial, h⟩

theorem run_refines (h : Inv lower s) (ops : List (Op K V)) (hops : ∀ o ∈ ops, o.OK lower) :
    (run lower s ops).2 = (Spec.run lower s.main ops).2 ∧
    (run lower s ops).1.main = (Spec.run lower s.main ops).1 ∧
    Inv lower (run lower s ops).1 := by
  induction ops generalizing s with
  | nil => exact ⟨rfl, rfl, h⟩
  | cons op ops ih =>
    obtain ⟨h1, h2, h3⟩ := step_refines h op (hops op (by simp))
    obtain ⟨i1, i2, i3⟩ := ih h3 (fun o ho => hops o (List.mem_cons_of_mem _ ho))
    rw [h2] at i1 i2
    exact ⟨by simp only [run, Spec.run, h1, i1], i2, i3⟩

end lemmas

/-! ## Property theorems -/

/-- C01 (all histories whose `update` batches do not themselves contain a key in two casings): construct a dictionary and
perform any history of operations; every observation equals that of the one-list specification, the items iterated at the
end are those of the specification, and no two stored keys differ only by case.
Missing from the full claim: `update` batches that conflict with themselves, see `C01_self_conflicting_update_counterexample`. -/
theorem C01_history_partial (lower : K → L) (seed : List (K × V)) (ops : List (Op K V))
    (hseed : SelfConsistent lower seed) (hops : ∀ o ∈ ops, o.OK lower) :
    ∃ s, init lower seed = .ok s ∧
      (run lower s ops).2 = (Spec.run lower s.main ops).2 ∧
      (run lower s ops).1.main = (Spec.run lower s.main ops).1 ∧
      Spec.CaseDistinct lower (run lower s ops).1.main := by
  obtain ⟨s, h1, h2, h3⟩ := inv_init (lower := lower) hseed
  obtain ⟨i1, i2, i3⟩ := run_refines h3 ops hops
  exact ⟨s, h1, i1, i2, i3.distinct⟩

/-- C01: construction answers the seed's last value for each key, under every casing of it. -/
theorem C01_init_lookup (lower : K → L) (seed : List (K × V)) (hseed : SelfConsistent lower seed) :
    ∃ s, init lower seed = .ok s ∧
      ∀ k k' v, lower k' = lower k → (∃ pre post, seed = pre ++ (k, v) :: post ∧ ∀ e ∈ post, e.1 ≠ k) →
        getItem lower s k' = .ok v := by
  obtain ⟨s, h1, h2, h3⟩ := inv_init (lower := lower) hseed
  refine ⟨s, h1, ?_⟩
  rintro k k' v hl ⟨pre, post, hsplit, hpost⟩
  have key : ∀ (post : List (K × V)) (d : Dict K V), (∀ e ∈ post, e.1 ≠ k) →
      (d.setAll post).get? k = d.get? k := by
    intro post
    induction post with
    | nil => intro d _; rfl
    | cons e post ih =>
      intro d he
      obtain ⟨a, b⟩ := e
      simp only [Dict.setAll]
      rw [ih _ (fun e h => he e (List.mem_cons_of_mem _ h)), Dict.get?_set, if_neg]
      exact he (a, b) (by simp)
  have happ : ∀ (pre : List (K × V)) (d : Dict K V) (l : List (K × V)),
      d.setAll (pre ++ l) = (d.setAll pre).setAll l := by
    intro pre
    induction pre with
    | nil => intros; rfl
    | cons e pre ih => intro d l; obtain ⟨a, b⟩ := e; simp only [List.cons_append, Dict.setAll]; exact ih _ _
  have hget : s.main.get? k = some v := by
    rw [h2, hsplit, happ]
    simp only [Dict.setAll]
    rw [key post _ hpost, Dict.get?_set_self]
  have hlow : s.low.get? (lower k') = some k := by
    rw [h3.low_get]
    exact ⟨Dict.get?_isSome_iff.mp (by rw [hget]; rfl), hl.symm⟩
  unfold getItem
  rw [hlow]; simp only; rw [hget]

/-- C01/C02: construction succeeds exactly when the seed has no key in two casings; otherwise it raises ValueError. -/
theorem C02_init_iff (lower : K → L) (seed : List (K × V)) :
    (SelfConsistent lower seed ∧ ∃ s, init lower seed = .ok s) ∨
    (¬ SelfConsistent lower seed ∧ init lower seed = .error .valueError) := by
  by_cases hc : SelfConsistent lower seed
  · obtain ⟨s, h1, -⟩ := inv_init (lower := lower) hc
    exact Or.inl ⟨hc, s, h1⟩
  · refine Or.inr ⟨hc, ?_⟩
    unfold SelfConsistent at hc
    simp only [Classical.not_forall] at hc
    obtain ⟨a, ha, b, hb, hl, hne⟩ := hc
    -- the registration loop over a list holding both keys raises
    have loop : ∀ (ks : List K) (low : Dict L K) (x y : K), lower x = lower y → x ≠ y →
        (x ∈ ks ∨ low.get? (lower x) = some x) → y ∈ ks →
        (registerAll lower low ks).2 = .error .valueError := by
      intro ks
      induction ks with
      | nil => intro _ _ _ _ _ _ hy; simp at hy
      | cons c ks ih =>
        intro low x y hxy hne hx hy
        simp only [registerAll, register]
        cases hg : low.get? (lower c) with
        | some prev =>
          simp only
          by_cases hp : prev = c
          · subst hp
            simp only [ne_eq, not_true_eq_false, if_false]
            by_cases hpy : prev = y
            · subst hpy
              rcases hx with hx | hx
              · have hx' : x ∈ ks := by
                  rcases List.mem_cons.mp hx with h | h
                  · exact absurd h hne
                  · exact h
                exact ih _ prev x hxy.symm (Ne.symm hne) (Or.inr (by simp)) hx'
              · rw [hxy, hg] at hx
                exact absurd (Option.some.inj hx).symm hne
            · have hy' : y ∈ ks := by
                rcases List.mem_cons.mp hy with h | h
                · exact absurd h.symm hpy
                · exact h
              refine ih _ x y hxy hne ?_ hy'
              rcases hx with hx | hx
              · rcases List.mem_cons.mp hx with h | h
                · subst h; exact Or.inr (by simp)
                · exact Or.inl h
              · right
                rw [Dict.get?_set]
                split
                · rename_i hh
                  rw [← hh, hg] at hx; exact hx
                · exact hx
          · simp [hp]
        | none =>
          simp only
          by_cases hcy : c = y
          · subst hcy
            rcases hx with hx | hx
            · have hx' : x ∈ ks := by
                rcases List.mem_cons.mp hx with h | h
                · exact absurd h hne
                · exact h
              exact ih _ c x hxy.symm (Ne.symm hne) (Or.inr (by simp)) hx'
            · rw [hxy, hg] at hx; cases hx
          · have hy' : y ∈ ks := by
              rcases List.mem_cons.mp hy with h | h
              · exact absurd h.symm hcy
              · exact h
            refine ih _ x y hxy hne ?_ hy'
            rcases hx with hx | hx
            · rcases List.mem_cons.mp hx with h | h
              · subst h; exact Or.inr (by simp)
              · exact Or.inl h
            · right
              rw [Dict.get?_set]
              split
              · rename_i hh
                rw [← hh, hg] at hx; cases hx
              · exact hx
    have hkey : ∀ e ∈ seed, e.1 ∈ Dict.keys (Dict.setAll [] seed) := by
      intro e he
      rw [Dict.mem_keys_setAll]; exact Or.inr (List.mem_map_of_mem he)
    have := loop (Dict.keys (Dict.setAll [] seed)) [] a.1 b.1 hl hne (Or.inl (hkey a ha)) (hkey b hb)
    unfold init
    simp only
    generalize registerAll lower [] (Dict.keys (Dict.setAll [] seed)) = r at this
    obtain ⟨r1, r2⟩ := r
    simp only at this
    subst this
    rfl

/-- C02: assigning a key present under another casing raises ValueError and changes nothing; any other assignment
succeeds and is afterwards found under every casing. -/
theorem C02_setItem (lower : K → L) (seed : List (K × V)) (ops : List (Op K V))
    (hseed : SelfConsistent lower seed) (hops : ∀ o ∈ ops, o.OK lower) (k : K) (v : V) :
    ∃ s0, init lower seed = .ok s0 ∧
      let s := (run lower s0 ops).1
      ((∃ e ∈ s.main, lower e.1 = lower k ∧ e.1 ≠ k) ∧ setItem lower s k v = (s, .error .valueError)) ∨
      ((∀ e ∈ s.main, lower e.1 = lower k → e.1 = k) ∧ (setItem lower s k v).2 = .ok () ∧
        ∀ k', lower k' = lower k → getItem lower (setItem lower s k v).1 k' = .ok v) := by
  obtain ⟨s0, h1, -, h3⟩ := inv_init (lower := lower) hseed
  obtain ⟨-, -, i3⟩ := run_refines h3 ops hops
  refine ⟨s0, h1, ?_⟩
  generalize (run lower s0 ops).1 = s at i3
  simp only
  have hreg := register_eq i3 k v
  cases hs : Spec.store lower s.main k v with
  | none =>
    left
    refine ⟨(store_isNone_iff i3.distinct).mp hs, ?_⟩
    unfold setItem; rw [hreg, hs]
  | some m' =>
    right
    have hset : setItem lower s k v = ({ main := s.main.set k v, low := s.low.set (lower k) k }, .ok ()) := by
      unfold setItem; rw [hreg, hs]
    refine ⟨?_, ?_, ?_⟩
    · intro e he hl
      by_cases hne : e.1 = k
      · exact hne
      · rw [(store_isNone_iff i3.distinct).mpr ⟨e, he, hl, hne⟩] at hs; cases hs
    · rw [hset]
    · intro k' hk'
      rw [hset]
      unfold getItem
      rw [hk']
      simp

/-- C02 (self-consistent batches): a failed `update` leaves the mapping exactly as it was, and it fails exactly when some
key of the batch is present under another casing. Missing: self-conflicting batches, see
`C02_update_not_atomic_counterexample`. -/
theorem C02_update_atomic_partial (lower : K → L) (seed : List (K × V)) (ops : List (Op K V))
    (hseed : SelfConsistent lower seed) (hops : ∀ o ∈ ops, o.OK lower) (b : List (K × V))
    (hb : SelfConsistent lower b) :
    ∃ s0, init lower seed = .ok s0 ∧
      let s := (run lower s0 ops).1
      ((∃ e ∈ b, ∃ e' ∈ s.main, lower e'.1 = lower e.1 ∧ e'.1 ≠ e.1) ∧
          update lower s b = (s, .error .valueError)) ∨
      ((∀ e ∈ b, ∀ e' ∈ s.main, lower e'.1 = lower e.1 → e'.1 = e.1) ∧ (update lower s b).2 = .ok () ∧
          some (update lower s b).1.main = Spec.storeAll lower s.main b) := by
  obtain ⟨s0, h1, -, h3⟩ := inv_init (lower := lower) hseed
  obtain ⟨-, -, i3⟩ := run_refines h3 ops hops
  refine ⟨s0, h1, ?_⟩
  generalize (run lower s0 ops).1 = s at i3
  simp only
  by_cases hc : ∀ e ∈ b, ∀ e' ∈ s.main, lower e'.1 = lower e.1 → e'.1 = e.1
  · right
    obtain ⟨m', h1, h2, h3, h4⟩ := update_ok i3 hb hc
    have hany : (b.map Prod.fst).any (conflicts lower s.low) = false := by
      rw [List.any_eq_false]
      intro k hk
      obtain ⟨e, he, rfl⟩ := List.mem_map.mp hk
      rw [conflicts_eq i3 e.1 e.2, Option.isNone_iff_eq_none, store_isNone_iff i3.distinct]
      rintro ⟨e', he', hl, hne⟩
      exact hne (hc e he e' he' hl)
    refine ⟨hc, ?_, ?_⟩
    · simp only [update, hany, Bool.false_eq_true, if_false]; exact h2
    · simp only [update, hany, Bool.false_eq_true, if_false, h3, h1]
  · left
    simp only [Classical.not_forall] at hc
    obtain ⟨e, he, e', he', hl, hne⟩ := hc
    refine ⟨⟨e, he, e', he', hl, hne⟩, ?_⟩
    have hany : (b.map Prod.fst).any (conflicts lower s.low) = true := by
      rw [List.any_eq_true]
      refine ⟨e.1, List.mem_map_of_mem he, ?_⟩
      rw [conflicts_eq i3 e.1 e.2, Option.isNone_iff_eq_none, store_isNone_iff i3.distinct]
      exact ⟨e', he', hl, hne⟩
    simp only [update, hany, if_true]

/-! ## Counterexamples and non-vacuity -/

/-- a small instance: keys are (letter, isUpper), lower-casing forgets the flag -/
abbrev demoLower : Nat × Bool → Nat := Prod.fst

/-- C02 fails for a batch holding `"a"` and `"A"`: `CaseInsensitiveDict().update({"a": 1, "A": 2})` raises ValueError but
both keys have been stored. -/
theorem C02_update_not_atomic_counterexample :
    ∃ (s s' : St (Nat × Bool) Nat Nat), init demoLower [] = .ok s ∧
      update demoLower s [((0, false), 1), ((0, true), 2)] = (s', .error .valueError) ∧
      s.main = [] ∧ s'.main = [((0, false), 1), ((0, true), 2)] :=
  ⟨⟨[], []⟩, ⟨[((0, false), 1), ((0, true), 2)], [(0, (0, false))]⟩, rfl, rfl, rfl, rfl⟩

/-- C01 fails after such a batch: two keys differing only by case are stored. -/
theorem C01_self_conflicting_update_counterexample :
    ∃ (s : St (Nat × Bool) Nat Nat) (ops : List (Op (Nat × Bool) Nat)), init demoLower [] = .ok s ∧
      ¬ Spec.CaseDistinct demoLower (run demoLower s ops).1.main :=
  ⟨⟨[], []⟩, [.update [((0, false), 1), ((0, true), 2)]], rfl, by
    simp [Spec.CaseDistinct, run, step, update, registerAll, register, conflicts, Dict.get?, Dict.setAll, Dict.set,
      demoLower]⟩

/-- `setdefault` (inherited) stores a key that the dictionary then denies having: `d.setdefault("a", 1)` followed by
`"a" in d` gives False, while `"a"` is iterated. -/
theorem C01_setdefault_counterexample :
    ∃ (s : St (Nat × Bool) Nat Nat), init demoLower [] = .ok s ∧
      (setdefault s (0, false) 1).1.main = [((0, false), 1)] ∧
      contains demoLower (setdefault s (0, false) 1).1 (0, false) = false ∧
      getItem demoLower (setdefault s (0, false) 1).1 (0, false) = .error .keyError :=
  ⟨⟨[], []⟩, rfl, rfl, rfl, rfl⟩

/-- the hypotheses of `C01_history_partial` are met by a history using every mutator, including a rejected one -/
example : SelfConsistent demoLower [((0, false), 10), ((1, true), 11)] ∧
    ∀ o ∈ ([.setItem (0, true) 5, .update [((2, false), 7), ((1, true), 8)], .pop (1, false), .popitem,
            .delItem (0, true), .becomeCopy, .clear] : List (Op (Nat × Bool) Nat)), o.OK demoLower := by
  refine ⟨by decide, ?_⟩
  simp only [List.mem_cons, List.not_mem_nil, or_false, forall_eq_or_imp, forall_eq, Op.OK, and_true, true_and]
  decide

/-- and the observations of such a history are not trivial -/
example : (Spec.run demoLower [((0, false), 10), ((1, true), 11)]
    [.setItem (0, true) 5, .getItem (0, true), .pop (1, false), .contains (1, true)]).2
    = [.raised .valueError, .val 10, .val 11, .bool false] := by decide

end Verif.CIDict
