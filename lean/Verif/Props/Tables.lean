import Verif.Model.Tables
/-!
# C71 and C72: the tables of the Strehlow & Cook demo
-/

set_option linter.unusedSimpArgs false

namespace Verif.Tables
open Verif.Py

/-! ## C71: the minimal subset -/

section
variable {α κ : Type} [DecidableEq κ] {fp : α → κ}

theorem novel_append (l : List α) (seen : List κ) (r : α) : novel fp seen (l ++ [r]) =
    novel fp seen l ++ if fp r ∈ seen ∨ fp r ∈ l.map fp then [] else [r] := by
  induction l generalizing seen with
  | nil => simp [novel]
  | cons a l ih =>
    simp only [List.cons_append, novel]
    split
    · rename_i h
      rw [ih]
      congr 1
      by_cases h1 : fp r = fp a
      · simp [h1, h]
      · simp [h1]
    · rw [ih, List.cons_append]
      congr 2
      simp only [List.mem_cons, List.map_cons, or_assoc, or_left_comm]

theorem novel_mem (l : List α) (seen : List κ) (k : κ) : k ∈ (novel fp seen l).map fp ↔ k ∈ l.map fp ∧ k ∉ seen := by
  induction l generalizing seen with
  | nil => simp [novel]
  | cons a l ih =>
    simp only [novel]
    split
    · rename_i h
      rw [ih]
      simp only [List.map_cons, List.mem_cons]
      constructor
      · rintro ⟨h1, h2⟩; exact ⟨.inr h1, h2⟩
      · rintro ⟨rfl | h1, h2⟩
        · exact absurd h h2
        · exact ⟨h1, h2⟩
    · rename_i h
      simp only [List.map_cons, List.mem_cons, ih, not_or]
      constructor
      · rintro (rfl | ⟨h1, h2, h3⟩)
        · exact ⟨.inl rfl, h⟩
        · exact ⟨.inr h1, h3⟩
      · rintro ⟨rfl | h1, h2⟩
        · exact .inl rfl
        · by_cases e : k = fp a
          · exact .inl e
          · exact .inr ⟨h1, e, h2⟩

theorem novel_sublist (l : List α) (seen : List κ) : (novel fp seen l).Sublist l := by
  induction l generalizing seen with
  | nil => exact List.Sublist.refl _
  | cons a l ih =>
    simp only [novel]
    split
    · exact (ih _).cons _
    · exact (ih _).cons_cons _

theorem novel_nodup (l : List α) (seen : List κ) : ((novel fp seen l).map fp).Nodup := by
  induction l generalizing seen with
  | nil => simp [novel]
  | cons a l ih =>
    simp only [novel]
    split
    · exact ih _
    · simp only [List.map_cons, List.nodup_cons]
      refine ⟨?_, ih _⟩
      rw [novel_mem]
      simp

/-- nothing to leave out -/
theorem novel_self (l : List α) (seen : List κ) (h1 : (l.map fp).Nodup) (h2 : ∀ r ∈ l, fp r ∉ seen) : novel fp seen l = l := by
  induction l generalizing seen with
  | nil => rfl
  | cons a l ih =>
    simp only [List.map_cons, List.nodup_cons] at h1
    simp only [novel]
    rw [if_neg (h2 a (by simp)), ih _ h1.2]
    intro r hr
    simp only [List.mem_cons, not_or]
    exact ⟨fun e => h1.1 (e ▸ List.mem_map_of_mem hr), h2 r (by simp [hr])⟩

theorem reduce_novel (l : List α) (seen todo : List κ) (h : ∀ r ∈ l, fp r ∈ todo ↔ fp r ∉ seen) : reduce fp todo l = novel fp seen l := by
  induction l generalizing seen todo with
  | nil => rfl
  | cons a l ih =>
    simp only [reduce, novel]
    by_cases ha : fp a ∈ seen
    · have ht : fp a ∉ todo := fun ht => (h a (by simp)).1 ht ha
      rw [if_neg ht, if_pos ha]
      exact ih _ _ (fun r hr => h r (by simp [hr]))
    · have ht : fp a ∈ todo := (h a (by simp)).2 ha
      rw [if_pos ht, if_neg ha]
      have key : ∀ r ∈ l, fp r ∈ todo.filter (fun k => k ≠ fp a) ↔ fp r ∉ fp a :: seen := by
        intro r hr
        simp only [List.mem_filter, decide_eq_true_eq, h r (by simp [hr]), List.mem_cons, not_or]
        exact and_comm
      split
      · rename_i he
        rw [List.isEmpty_iff] at he
        congr 1
        symm
        apply List.eq_nil_iff_forall_not_mem.2
        intro r hr
        have hk := (novel_mem (fp := fp) l (fp a :: seen) (fp r)).1 (List.mem_map_of_mem hr)
        obtain ⟨r', hr', e⟩ := List.mem_map.1 hk.1
        have := (key r' hr').2 (e ▸ hk.2)
        rw [he] at this
        cases this
      · congr 1
        exact ih _ _ key

end

/-- a type whose name has no `>` in it -/
def Named : Cell → Prop
  | .other n => '>' ∉ n
  | _ => True

theorem typeName_split (c : Cell) (h : Named c) : ∃ w, typeName c = w ++ ['>'] ∧ '>' ∉ w := by
  cases c
  case other n =>
    simp only [Named] at h
    refine ⟨"<class '".toList ++ n ++ ['\''], ?_, ?_⟩
    · have e : "'>".toList = ['\''] ++ ['>'] := by decide
      show "<class '".toList ++ n ++ "'>".toList = _
      rw [e, ← List.append_assoc]
    have : '>' ∉ "<class '".toList := by decide
    simp only [List.mem_append, not_or]
    exact ⟨⟨this, h⟩, by decide⟩
  case nominal => exact ⟨"<class 'gemd.entity.value.nominal_real.NominalReal'".toList, rfl, by decide⟩
  case normal => exact ⟨"<class 'gemd.entity.value.normal_real.NormalReal'".toList, rfl, by decide⟩
  case uniform => exact ⟨"<class 'gemd.entity.value.uniform_real.UniformReal'".toList, rfl, by decide⟩
  case category => exact ⟨"<class 'gemd.entity.value.nominal_categorical.NominalCategorical'".toList, rfl, by decide⟩
  case formula => exact ⟨"<class 'gemd.entity.value.empirical_formula.EmpiricalFormula'".toList, rfl, by decide⟩
  case text => exact ⟨"<class 'str'".toList, rfl, by decide⟩
  case absent => exact ⟨"<class 'NoneType'".toList, rfl, by decide⟩

theorem cut {w v a b : List Char} (hw : '>' ∉ w) (hv : '>' ∉ v) (h : w ++ '>' :: a = v ++ '>' :: b) : w = v ∧ a = b := by
  induction w generalizing v with
  | nil =>
    cases v with
    | nil => simp at h; exact ⟨rfl, h⟩
    | cons c v =>
      simp only [List.nil_append, List.cons_append, List.cons.injEq] at h
      simp only [List.mem_cons, not_or] at hv
      exact absurd h.1 hv.1
  | cons c w ih =>
    simp only [List.mem_cons, not_or] at hw
    cases v with
    | nil =>
      simp only [List.nil_append, List.cons_append, List.cons.injEq] at h
      exact absurd h.1.symm hw.1
    | cons d v =>
      simp only [List.mem_cons, not_or] at hv
      simp only [List.cons_append, List.cons.injEq] at h
      obtain ⟨h1, h2⟩ := ih hw.2 hv.2 h.2
      exact ⟨by rw [h.1, h1], h2⟩

/-- C71: the fingerprint of a row tells the types of its cells, in order. -/
theorem C71_fingerprint (a b : List Cell) (ha : ∀ c ∈ a, Named c) (hb : ∀ c ∈ b, Named c) : fingerprint a = fingerprint b ↔ a.map typeName = b.map typeName := by
  constructor
  · intro h
    unfold fingerprint at h
    induction a generalizing b with
    | nil =>
      cases b with
      | nil => rfl
      | cons d b =>
        obtain ⟨w, e, _⟩ := typeName_split d (hb d (by simp))
        simp [e] at h
    | cons c a ih =>
      obtain ⟨w, e, hw⟩ := typeName_split c (ha c (by simp))
      cases b with
      | nil => simp [e] at h
      | cons d b =>
        obtain ⟨v, e', hv⟩ := typeName_split d (hb d (by simp))
        simp only [List.flatMap_cons, e, e', List.append_assoc, List.cons_append, List.nil_append] at h
        obtain ⟨h1, h2⟩ := cut hw hv h
        have := ih b (fun c hc => ha c (by simp [hc])) (fun c hc => hb c (by simp [hc])) h2
        simp only [List.map_cons, this, e, e', h1]
  · intro h
    unfold fingerprint
    rw [List.flatMap_def, List.flatMap_def, h]

/-- C71: `minimal_subset` keeps rows in order, one of each kind. -/
theorem C71_minimal (table : List (List Cell)) : (minimalSubset table).Sublist table ∧ ((minimalSubset table).map fingerprint).Nodup ∧
    ∀ row ∈ table, ∃ row' ∈ minimalSubset table, fingerprint row' = fingerprint row := by
  refine ⟨novel_sublist _ _, novel_nodup _ _, fun row hr => ?_⟩
  have := (novel_mem (fp := fingerprint) table [] (fingerprint row)).2 ⟨List.mem_map_of_mem hr, by simp⟩
  obtain ⟨r, h1, h2⟩ := List.mem_map.1 this
  exact ⟨r, h1, h2⟩

/-- C71: the row that is kept is the first of its kind: a further row is added just if no earlier one is of its kind. -/
theorem C71_first (table : List (List Cell)) (row : List Cell) : minimalSubset [] = [] ∧ minimalSubset (table ++ [row]) =
    minimalSubset table ++ if ∃ r ∈ table, fingerprint r = fingerprint row then [] else [row] := by
  refine ⟨rfl, ?_⟩
  unfold minimalSubset
  rw [novel_append]
  simp only [List.not_mem_nil, false_or, List.mem_map]

/-- C71: a minimal table stays as it is. -/
theorem C71_again (table : List (List Cell)) : minimalSubset (minimalSubset table) = minimalSubset table :=
  novel_self _ _ (novel_nodup _ _) (by simp)

theorem novel_map {α β κ : Type} [DecidableEq κ] (f : α → β) (fp : β → κ) (l : List α) (seen : List κ) :
    (novel (fun a => fp (f a)) seen l).map f = novel fp seen (l.map f) := by
  induction l generalizing seen with
  | nil => rfl
  | cons a l ih =>
    simp only [novel, List.map_cons]
    split
    · exact ih _
    · simp [ih]

/-- C71: the script writes the imported rows that belong to the rows of the minimal table, in order. -/
theorem C71_script {ρ : Type} (imported : List ρ) (content : List (List Cell)) (h : imported.length = content.length) :
    ∃ picked : List (ρ × List Cell), picked.Sublist (imported.zip content) ∧ picked.map Prod.snd = minimalSubset content ∧ picked.map Prod.fst = reducedList imported content := by
  have hz : (imported.zip content).map Prod.snd = content := by
    rw [List.map_snd_zip]; omega
  refine ⟨novel (fun p => fingerprint p.2) [] (imported.zip content), novel_sublist _ _, ?_, ?_⟩
  · rw [novel_map Prod.snd fingerprint, hz]
    rfl
  · unfold reducedList
    rw [reduce_novel (seen := [])]
    intro r hr
    simp only [List.not_mem_nil, not_false_eq_true, iff_true]
    unfold minimalSubset
    rw [novel_mem]
    exact ⟨List.mem_map.2 ⟨r.2, (List.of_mem_zip hr).2, rfl⟩, by simp⟩

/-- two rows of one kind and one of another -/
def three : List (List Cell) := [[.text "a", .nominal 1 "eV"], [.text "b", .nominal 2 "eV"], [.text "c", .absent]]

example : minimalSubset three = [[.text "a", .nominal 1 "eV"], [.text "c", .absent]] ∧ reducedList [10, 20, 30] three = [10, 30] ∧ (∀ r ∈ three, ∀ c ∈ r, Named c) := by
  refine ⟨by decide +kernel, by decide +kernel, ?_⟩
  intro r hr c hc
  simp only [three, List.mem_cons, List.not_mem_nil, or_false] at hr
  rcases hr with rfl | rfl | rfl <;> simp at hc <;> rcases hc with rfl | rfl <;> simp [Named]

/-! ## C72: the display table -/

theorem mapE_ok {α β : Type} {f : α → Except PyErr β} {l : List α} {r : List β} (h : mapE f l = .ok r) :
    r.length = l.length ∧ ∀ (j : Nat) a, l[j]? = some a → ∃ b, r[j]? = some b ∧ f a = .ok b := by
  induction l generalizing r with
  | nil => cases h; simp
  | cons a l ih =>
    simp only [mapE] at h
    split at h
    · cases h
    · rename_i b hb
      split at h
      · cases h
      · rename_i bs hbs
        cases h
        obtain ⟨h1, h2⟩ := ih hbs
        refine ⟨by simp [h1], fun j c hj => ?_⟩
        cases j with
        | zero => simp at hj; subst hj; exact ⟨b, rfl, hb⟩
        | succ j => simpa using h2 j c (by simpa using hj)

theorem mapE_total {α β : Type} {f : α → Except PyErr β} {l : List α} : (∃ r, mapE f l = .ok r) ↔ ∀ a ∈ l, ∃ b, f a = .ok b := by
  constructor
  · rintro ⟨r, h⟩ a ha
    obtain ⟨j, hj⟩ := List.getElem?_of_mem ha
    obtain ⟨b, _, hb⟩ := (mapE_ok h).2 j a hj
    exact ⟨b, hb⟩
  · intro h
    induction l with
    | nil => exact ⟨[], rfl⟩
    | cons a l ih =>
      obtain ⟨b, hb⟩ := h a (by simp)
      obtain ⟨r, hr⟩ := ih (fun a ha => h a (by simp [ha]))
      exact ⟨b :: r, by simp [mapE, hb, hr]⟩

theorem within_iff (pat s : List Char) : within pat s = true ↔ ∃ a b, s = a ++ pat ++ b := by
  induction s with
  | nil =>
    simp only [within, List.isEmpty_iff]
    constructor
    · rintro rfl; exact ⟨[], [], rfl⟩
    · rintro ⟨a, b, h⟩
      simp at h
      exact h.2.1
  | cons c cs ih =>
    simp only [within, Bool.or_eq_true, ih, List.isPrefixOf_iff_prefix]
    constructor
    · rintro (⟨b, h⟩ | ⟨a, b, h⟩)
      · exact ⟨[], b, by simp [h]⟩
      · exact ⟨c :: a, b, by simp [h]⟩
    · rintro ⟨a, b, h⟩
      cases a with
      | nil => exact .inl ⟨b, by simpa using h.symm⟩
      | cons d a =>
        simp only [List.cons_append, List.cons.injEq] at h
        exact .inr ⟨a, b, h.2⟩

theorem insertAt_get {α : Type} (l : List α) (i : Nat) (x : α) (hi : i ≤ l.length) : (insertAt l i x).length = l.length + 1 ∧ (∀ j < i, (insertAt l i x)[j]? = l[j]?) ∧
    (insertAt l i x)[i]? = some x ∧ ∀ j ≥ i, (insertAt l i x)[j + 1]? = l[j]? := by
  have hlen : (l.take i).length = i := by simp [hi]
  unfold insertAt
  refine ⟨by simp; omega, fun j hj => ?_, ?_, fun j hj => ?_⟩
  · rw [List.getElem?_append_left (by omega), List.getElem?_take_of_lt hj]
  · rw [List.getElem?_append_right (by omega), hlen]; simp
  · rw [List.getElem?_append_right (by omega), hlen, show j + 1 - i = (j - i) + 1 by omega, List.getElem?_cons_succ, List.getElem?_drop]
    congr 1
    omega

/-- what a cell shows: a value its number, the middle of an interval, its category, its formula -/
inductive Shows : Cell → Shown → Prop where
  | nominal (x u) : Shows (.nominal x u) (.number x)
  | normal (x s u) : Shows (.normal x s u) (.number x)
  | uniform (a b u m : _) : m - a = b - m → Shows (.uniform a b u) (.number m)
  | category (s) : Shows (.category s) (.text s)
  | formula (s) : Shows (.formula s) (.text s)
  | text (s) : Shows (.text s) (.text s)
  | absent : Shows .absent (.text "")

/-- the uncertainty of a cell -/
inductive Spreads : Cell → Shown → Prop where
  | nominal (x u) : Spreads (.nominal x u) (.text "")
  | normal (x s u) : Spreads (.normal x s u) (.number s)
  | uniform (a b u) : Spreads (.uniform a b u) (.number (29 / 100 * (b - a)))
  | absent : Spreads .absent (.text "")

theorem shows_iff {c : Cell} {s : Shown} : contentOf c = .ok s ↔ Shows c s := by
  constructor
  · intro h
    cases c <;> simp only [contentOf, Except.ok.injEq, reduceCtorEq] at h <;> subst h <;> constructor
    grind
  · intro h
    cases h <;> try rfl
    rename_i a b u m h
    simp only [contentOf, Except.ok.injEq, Shown.number.injEq]
    grind

theorem spreads_iff {c : Cell} {s : Shown} : uncertaintyOf c = .ok s ↔ Spreads c s := by
  constructor
  · intro h
    cases c <;> simp only [uncertaintyOf, Except.ok.injEq, reduceCtorEq] at h <;> subst h <;> constructor
  · intro h
    cases h <;> rfl

/-- the words that stand for the bounds of a column in its header; none for other bounds than these -/
inductive Word : Option Bounds → String → Prop where
  | mean {u : String} : Word (some (.real u)) ("Mean(" ++ u ++ ")")
  | category : Word (some .categorical) "Category"
  | formula : Word (some .composition) "Formula"
  | label : Word none "Label"

/-- the headers of the columns: the parts of the name and the word for the bounds, joined with `~` -/
def Headers (columns : List Column) (heads : List String) : Prop :=
  heads.length = columns.length ∧
  ∀ (j : Nat) c, columns[j]? = some c → ∃ w, Word c.bounds w ∧ heads[j]? = some ("~".intercalate (c.name ++ [w]))

theorem word_iff {b : Option Bounds} {w : String} : headerOf b = .ok w ↔ Word b w := by
  constructor
  · intro h
    unfold headerOf at h
    split at h <;> cases h <;> constructor
  · intro h
    cases h <;> rfl

theorem header_iff {c : Column} {t : String} : header c = .ok t ↔ ∃ w, Word c.bounds w ∧ t = "~".intercalate (c.name ++ [w]) := by
  unfold header
  constructor
  · intro h
    split at h
    · cases h
    · rename_i w hw
      cases h
      exact ⟨w, word_iff.1 hw, rfl⟩
  · rintro ⟨w, hw, rfl⟩
    rw [word_iff.2 hw]

theorem headers_iff {columns : List Column} {heads : List String} : mapE header columns = .ok heads ↔ Headers columns heads := by
  constructor
  · intro h
    obtain ⟨h1, h2⟩ := mapE_ok h
    refine ⟨h1, fun j c hc => ?_⟩
    obtain ⟨t, e1, e2⟩ := h2 j c hc
    obtain ⟨w, hw, rfl⟩ := header_iff.1 e2
    exact ⟨w, hw, e1⟩
  · rintro ⟨h1, h2⟩
    obtain ⟨r, hr⟩ : ∃ r, mapE header columns = .ok r := mapE_total.2 (fun a ha => by
      obtain ⟨j, hj⟩ := List.getElem?_of_mem ha
      obtain ⟨w, hw, _⟩ := h2 j a hj
      exact ⟨_, header_iff.2 ⟨w, hw, rfl⟩⟩)
    obtain ⟨r1, r2⟩ := mapE_ok hr
    rw [hr]
    congr 1
    apply List.ext_getElem? 
    intro j
    cases hc : columns[j]? with
    | none =>
      rw [List.getElem?_eq_none_iff] at hc
      rw [List.getElem?_eq_none (by omega), List.getElem?_eq_none (by omega)]
    | some c =>
      obtain ⟨w, hw, e⟩ := h2 j c hc
      obtain ⟨t, e1, e2⟩ := r2 j c hc
      rw [header_iff.2 ⟨w, hw, rfl⟩] at e2
      cases e2
      rw [e1, e]

/-- the column is that of the band gap: its header mentions it, and no earlier one does -/
def BandGap (headers : List String) (i : Nat) : Prop :=
  (∃ h, headers[i]? = some h ∧ ∃ a b, h.toList = a ++ "Band gap".toList ++ b) ∧
  ∀ j < i, ∀ h, headers[j]? = some h → ¬ ∃ a b, h.toList = a ++ "Band gap".toList ++ b

theorem bandGap_iff {hs : List String} {i : Nat} : hs.findIdx? (fun h => within "Band gap".toList h.toList) = some i ↔ BandGap hs i := by
  rw [List.findIdx?_eq_some_iff_getElem]
  unfold BandGap
  constructor
  · rintro ⟨hi, h1, h2⟩
    refine ⟨⟨hs[i], List.getElem?_eq_getElem hi, (within_iff _ _).1 h1⟩, fun j hj h hh hc => ?_⟩
    obtain ⟨hjl, rfl⟩ := List.getElem?_eq_some_iff.1 hh
    exact absurd ((within_iff _ _).2 hc) (by simpa using h2 j hj)
  · rintro ⟨⟨h, hh, hw⟩, h2⟩
    obtain ⟨hi, rfl⟩ := List.getElem?_eq_some_iff.1 hh
    refine ⟨hi, (within_iff _ _).2 hw, fun j hj => ?_⟩
    have := h2 j hj _ (List.getElem?_eq_getElem (by omega))
    rw [← within_iff] at this
    simpa using this

/-- the row of the display table for a row of the structured table: a cell for each, and behind that of the band gap its uncertainty -/
structure RowShown (i : Nat) (row : List Cell) (out : List Shown) : Prop where
  length : out.length = row.length + 1
  before : ∀ j c, j ≤ i → row[j]? = some c → ∃ s, out[j]? = some s ∧ Shows c s
  spread : ∃ c s, row[i]? = some c ∧ out[i + 1]? = some s ∧ Spreads c s
  after : ∀ j c, j > i → row[j]? = some c → ∃ s, out[j + 1]? = some s ∧ Shows c s

theorem shownRow_ok {i : Nat} {row : List Cell} {out : List Shown} (h : shownRow i row = .ok out) : RowShown i row out := by
  unfold shownRow at h
  split at h
  · cases h
  · rename_i cells hc
    split at h
    · cases h
    · rename_i c hi
      split at h
      · cases h
      · rename_i u hu
        cases h
        obtain ⟨h1, h2⟩ := mapE_ok hc
        have hil := (List.getElem?_eq_some_iff.1 hi).1
        obtain ⟨k1, k2, k3, k4⟩ := insertAt_get cells (i + 1) u (by omega)
        refine ⟨by omega, fun j c hj hjc => ?_, ⟨c, u, hi, k3, spreads_iff.1 hu⟩, fun j c hj hjc => ?_⟩
        · obtain ⟨s, e1, e2⟩ := h2 j c hjc
          exact ⟨s, by rw [k2 j (by omega), e1], shows_iff.1 e2⟩
        · obtain ⟨s, e1, e2⟩ := h2 j c hjc
          exact ⟨s, by rw [k4 j (by omega), e1], shows_iff.1 e2⟩

/-- C72: the display table has one column more than the structured one. Behind the column of the band gap comes that of its uncertainty; the other cells show those of the structured
table, in order. If the structured table is rectangular, so is the display table. -/
theorem C72_display (columns : List Column) (content : List (List Cell)) (hs : List String) (rows : List (List Shown))
    (h : displayTable columns content = .ok (hs, rows)) :
    ∃ (heads : List String) (i : Nat) (c : Column) (u : String), Headers columns heads ∧
      BandGap heads i ∧ columns[i]? = some c ∧ c.bounds = some (.real u) ∧
      hs.length = columns.length + 1 ∧ (∀ j ≤ i, hs[j]? = heads[j]?) ∧ hs[i + 1]? = some ("~".intercalate (c.name ++ ["Std Deviation(" ++ u ++ ")"])) ∧
      (∀ j > i, hs[j + 1]? = heads[j]?) ∧
      rows.length = content.length ∧ (∀ (k : Nat) row, content[k]? = some row → ∃ out, rows[k]? = some out ∧ RowShown i row out) ∧
      ((∀ row ∈ content, row.length = columns.length) → ∀ out ∈ rows, out.length = hs.length) := by
  unfold displayTable at h
  split at h
  · cases h
  · rename_i heads hh
    split at h
    · cases h
    · rename_i i hi
      split at h
      · cases h
      · rename_i c hc
        split at h
        · rename_i u hu
          split at h
          · cases h
          · rename_i rows' hr
            cases h
            obtain ⟨h1, h2⟩ := mapE_ok hh
            obtain ⟨r1, r2⟩ := mapE_ok hr
            have hil := (List.getElem?_eq_some_iff.1 hc).1
            obtain ⟨k1, k2, k3, k4⟩ := insertAt_get heads (i + 1) ("~".intercalate (c.name ++ ["Std Deviation(" ++ u ++ ")"])) (by omega)
            have key : ∀ (k : Nat) row, content[k]? = some row → ∃ out, rows[k]? = some out ∧ RowShown i row out := by
              intro k row hk
              obtain ⟨out, e1, e2⟩ := r2 k row hk
              exact ⟨out, e1, shownRow_ok e2⟩
            refine ⟨heads, i, c, u, headers_iff.1 hh, bandGap_iff.1 hi, hc, hu, by omega, fun j hj => k2 j (by omega), k3, fun j hj => k4 j (by omega), r1, key, ?_⟩
            intro hrect out ho
            obtain ⟨k, hk⟩ := List.getElem?_of_mem ho
            have hkl := (List.getElem?_eq_some_iff.1 hk).1
            obtain ⟨out', e1, e2⟩ := key k _ (List.getElem?_eq_getElem (by omega))
            rw [hk] at e1
            cases e1
            rw [e2.length, hrect _ (List.getElem_mem _), k1, h1]
        · cases h
        · cases h

/-- C72: `make_display_table` succeeds exactly if all bounds and cells are of known classes, the band gap has a column with real bounds, and each row has there a real value or nothing. -/
theorem C72_display_accepts (columns : List Column) (content : List (List Cell)) : (∃ r, displayTable columns content = .ok r) ↔
    ∃ heads, Headers columns heads ∧ ∃ i c u, BandGap heads i ∧ columns[i]? = some c ∧ c.bounds = some (.real u) ∧
      ∀ row ∈ content, (∀ cell ∈ row, ∀ n, cell ≠ .other n) ∧ ∃ cell, row[i]? = some cell ∧ ∃ s, Spreads cell s := by
  have hrow : ∀ i row, (∃ out, shownRow i row = .ok out) ↔ (∀ cell ∈ row, ∀ n, cell ≠ .other n) ∧ ∃ cell, row[i]? = some cell ∧ ∃ s, Spreads cell s := by
    intro i row
    have hm : (∃ r, mapE contentOf row = .ok r) ↔ ∀ cell ∈ row, ∀ n, cell ≠ .other n := by
      rw [mapE_total]
      refine forall_congr' fun a => forall_congr' fun _ => ?_
      cases a <;> simp [contentOf]
    rw [← hm]
    constructor
    · rintro ⟨out, h⟩
      have h' := (shownRow_ok h).spread
      obtain ⟨c, s, h1, _, h3⟩ := h'
      refine ⟨?_, c, h1, s, h3⟩
      unfold shownRow at h
      split at h
      · cases h
      · exact ⟨_, by assumption⟩
    · rintro ⟨⟨r, hr⟩, c, h1, s, h2⟩
      unfold shownRow
      rw [hr]
      simp only [h1, spreads_iff.2 h2]
      exact ⟨_, rfl⟩
  constructor
  · rintro ⟨⟨hs, rows⟩, h⟩
    unfold displayTable at h
    split at h
    · cases h
    · rename_i heads hh
      split at h
      · cases h
      · rename_i i hi
        split at h
        · cases h
        · rename_i c hc
          split at h
          · rename_i u hu
            split at h
            · cases h
            · rename_i rows' hr
              exact ⟨heads, headers_iff.1 hh, i, c, u, bandGap_iff.1 hi, hc, hu, fun row hrw => (hrow i row).1 (mapE_total.1 ⟨_, hr⟩ row hrw)⟩
          · cases h
          · cases h
  · rintro ⟨heads, hh, i, c, u, h1, h2, h3, h4⟩
    obtain ⟨rows, hr⟩ := mapE_total.2 (fun row hrw => (hrow i row).2 (h4 row hrw))
    unfold displayTable
    rw [headers_iff.2 hh]
    simp only [bandGap_iff.2 h1, h2, h3, hr]
    exact ⟨_, rfl⟩

/-- C72: how `make_display_table` fails: with AssertionError if no column is about the band gap, with KeyError if its column has no bounds, and with AttributeError if they are not
real bounds. -/
theorem C72_display_raises (columns : List Column) (content : List (List Cell)) (heads : List String) (hh : Headers columns heads) :
    ((∀ i, ¬ BandGap heads i) → displayTable columns content = .error .assertionError) ∧
    ∀ i c, BandGap heads i → columns[i]? = some c →
      (c.bounds = none → displayTable columns content = .error .keyError) ∧
      (∀ b, c.bounds = some b → (∀ u, b ≠ .real u) → displayTable columns content = .error .attributeError) := by
  constructor
  · intro h
    unfold displayTable
    rw [headers_iff.2 hh]
    cases hi : heads.findIdx? (fun h => within "Band gap".toList h.toList) with
    | none => simp only [hi]
    | some i => exact absurd (bandGap_iff.1 hi) (h i)
  · intro i c hi hc
    constructor
    · intro hb
      unfold displayTable
      rw [headers_iff.2 hh]
      simp only [bandGap_iff.2 hi, hc, hb]
    · intro b hb hr
      unfold displayTable
      rw [headers_iff.2 hh]
      cases b with
      | real u => exact absurd rfl (hr u)
      | _ => simp only [bandGap_iff.2 hi, hc, hb]

/-! ### Uncertainties -/

/-- C72: a reported uncertainty is kept with its value, in other units than electron volts. -/
theorem C72_uncertainty_partial (convert : Rat → Rat) (value s : Rat) (units : String) (h : units ≠ "eV") : realMapper convert value (some s) units = .normal value s units := by
  simp [realMapper, h]

/-- C72: in electron volts, the uncertainty that was reported is lost: the standard deviation of a band gap is its mean, whatever it should be. -/
theorem C72_uncertainty_fails (convert : Rat → Rat) (value s s' : Rat) : realMapper convert value (some s) "eV" = realMapper convert value (some s') "eV" ∧
    ∃ x, realMapper convert value (some s) "eV" = .normal x x "aJ" := ⟨rfl, _, rfl⟩

/-- a table with a band gap in the second of three columns -/
def gaps : List Column := [⟨["Chemical", "Display name"], none⟩, ⟨["Chemical", "Band gap"], some (.real "eV")⟩, ⟨["Chemical", "Color"], some .categorical⟩]

example : displayTable gaps [[.text "Si", .normal 1 (1/10) "eV", .category "Gray"], [.text "C", .uniform 5 6 "eV", .absent]] =
    .ok (["Chemical~Display name~Label", "Chemical~Band gap~Mean(eV)", "Chemical~Band gap~Std Deviation(eV)", "Chemical~Color~Category"],
      [[.text "Si", .number 1, .number (1/10), .text "Gray"], [.text "C", .number (11/2), .number (29/100), .text ""]]) := by decide +kernel

/-- a category for a band gap, or no band gap -/
example : displayTable gaps [[.text "Si", .category "wide", .category "Gray"]] = .error .keyError ∧ displayTable [gaps[0]] [] = .error .assertionError := by decide +kernel

end Verif.Tables
