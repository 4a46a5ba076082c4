import Verif.Model.Strehlow
import Verif.Props.Tables
import Verif.Props.Markup
import Verif.Props.Strings
/-!
# C76: the structured table of the Strehlow & Cook data
-/

set_option linter.unusedSimpArgs false
set_option linter.unusedVariables false

namespace Verif.Strehlow
open Verif.Py Verif.Tables

/-! ## The specification -/

/-- the names of phases, and of transitions; the data also give crystal systems as phases and bands as transitions -/
def phases : List String := ["A", "B", "B1", "B2", "Fused quartz", "Natural diamond", "Rutile", "Sapphire", "Synthetic quartz"]
def transitions : List String := ["Direct", "Excitonic", "Indirect"]

/-- the column an attribute of the data belongs to -/
def goesTo (a : RawAttr) : String :=
  if a.name = "Phase" ∧ a.value ∉ phases then "Crystal system"
  else if a.name = "Transition" ∧ a.value ∉ transitions then "Bands"
  else a.name

/-- the attributes of a row: each property, followed by its conditions -/
def reported (r : Row) : List RawAttr := r.properties.flatMap (fun p => [p.attr] ++ p.conditions)

theorem attrs_reported (r : Row) : r.attrs = reported r := rfl

/-- the columns of numbers -/
def numeric : List String := ["Band gap", "Temperature derivative of band gap", "Temperature"]

/-- the cell of an attribute in its column -/
def Holds (a : RawAttr) (c : Cell) : Prop := if goesTo a ∈ numeric then a.real = .ok c else c = .category a.value

/-- none of the attributes belongs to the column, if only the first of each name counts; names in `seen` do not count at all -/
def Unreported (seen : List String) (l : List RawAttr) (term : String) : Prop :=
  ∀ pre a post, l = pre ++ a :: post → a.name ∉ seen → (∀ x ∈ pre, x.name ≠ a.name) → goesTo a ≠ term

/-- the attribute is the first that belongs to the column, if only the first of each name counts -/
def Reported (seen : List String) (l : List RawAttr) (term : String) (a : RawAttr) : Prop :=
  ∃ pre post, l = pre ++ a :: post ∧ a.name ∉ seen ∧ (∀ x ∈ pre, x.name ≠ a.name) ∧ goesTo a = term ∧ Unreported seen pre term

/-! ## Lemmas -/

theorem unreported_skip {seen : List String} {l : List RawAttr} {term : String} {a : RawAttr} (ha : a.name ∈ seen) (h : Unreported seen l term) : Unreported seen (a :: l) term := by
  intro pre b post hl hb hp
  cases pre with
  | nil => simp only [List.nil_append, List.cons.injEq] at hl; rw [← hl.1] at hb; exact absurd ha hb
  | cons x pre =>
    simp only [List.cons_append, List.cons.injEq] at hl
    exact h pre b post hl.2 hb (fun y hy => hp y (List.mem_cons_of_mem _ hy))

theorem unreported_cons {seen : List String} {l : List RawAttr} {term : String} {a : RawAttr} (ha : goesTo a ≠ term) (h : Unreported (a.name :: seen) l term) :
    Unreported seen (a :: l) term := by
  intro pre b post hl hb hp
  cases pre with
  | nil => simp only [List.nil_append, List.cons.injEq] at hl; rw [← hl.1]; exact ha
  | cons x pre =>
    simp only [List.cons_append, List.cons.injEq] at hl
    refine h pre b post hl.2 ?_ (fun y hy => hp y (List.mem_cons_of_mem _ hy))
    have := hp x (List.mem_cons_self ..)
    rw [← hl.1] at this
    simp only [List.mem_cons, not_or]
    exact ⟨Ne.symm this, hb⟩

theorem reported_skip {seen : List String} {l : List RawAttr} {term : String} {a b : RawAttr} (ha : a.name ∈ seen) (h : Reported seen l term b) : Reported seen (a :: l) term b := by
  obtain ⟨pre, post, hl, hb, hp, hg, hu⟩ := h
  refine ⟨a :: pre, post, by rw [hl]; rfl, hb, fun x hx => ?_, hg, unreported_skip ha hu⟩
  rcases List.mem_cons.1 hx with rfl | hx
  · exact fun e => hb (e ▸ ha)
  · exact hp x hx

theorem reported_cons {seen : List String} {l : List RawAttr} {term : String} {a b : RawAttr} (ha : goesTo a ≠ term) (h : Reported (a.name :: seen) l term b) :
    Reported seen (a :: l) term b := by
  obtain ⟨pre, post, hl, hb, hp, hg, hu⟩ := h
  simp only [List.mem_cons, not_or] at hb
  refine ⟨a :: pre, post, by rw [hl]; rfl, hb.2, fun x hx => ?_, hg, unreported_cons ha hu⟩
  rcases List.mem_cons.1 hx with rfl | hx
  · exact Ne.symm hb.1
  · exact hp x hx

theorem reported_here {seen : List String} {l : List RawAttr} {a : RawAttr} (ha : a.name ∉ seen) : Reported seen (a :: l) (goesTo a) a :=
  ⟨[], l, rfl, ha, by simp, rfl, fun pre b post hl => by simp at hl⟩

/-- routing: the template found is that of the column the attribute belongs to -/
theorem routed_spec {a : RawAttr} {n : String} {t : Tmpl} (h : routed templates nameMap a = .ok (n, t)) : n = goesTo a ∧ templates.lookup n = some t := by
  obtain ⟨name, value, real⟩ := a
  unfold routed at h
  simp only at h
  by_cases h1 : name = "Phase"
  · subst h1
    have e1 : templates.lookup "Phase" = some (.condition (.categorical phases)) := by decide +kernel
    have e2 : nameMap.lookup "Phase" = some "Crystal system" := by decide +kernel
    have e3 : ∃ t, templates.lookup "Crystal system" = some t := ⟨_, rfl⟩
    obtain ⟨t', e3⟩ := e3
    simp only [e1, e2, Tmpl.bounds] at h
    unfold goesTo
    by_cases hv : value ∈ phases
    · simp only [hv, if_true, Except.ok.injEq, Prod.mk.injEq] at h
      simp [hv, ← h.1, ← h.2, e1]
    · simp only [hv, if_false, e3, Except.ok.injEq, Prod.mk.injEq] at h
      simp [hv, ← h.1, ← h.2, e3]
  · by_cases h2 : name = "Transition"
    · subst h2
      have e1 : templates.lookup "Transition" = some (.condition (.categorical transitions)) := by decide +kernel
      have e2 : nameMap.lookup "Transition" = some "Bands" := by decide +kernel
      have e3 : ∃ t, templates.lookup "Bands" = some t := ⟨_, rfl⟩
      obtain ⟨t', e3⟩ := e3
      simp only [e1, e2, Tmpl.bounds] at h
      unfold goesTo
      by_cases hv : value ∈ transitions
      · simp only [hv, if_true, Except.ok.injEq, Prod.mk.injEq] at h
        simp [hv, ← h.1, ← h.2, e1]
      · simp only [hv, if_false, e3, Except.ok.injEq, Prod.mk.injEq] at h
        simp [hv, ← h.1, ← h.2, e3]
    · have e2 : nameMap.lookup name = none := by
        have b1 : (name == "Phase") = false := by simp [h1]
        have b2 : (name == "Transition") = false := by simp [h2]
        simp only [nameMap, List.lookup, b1, b2]
      cases hl : templates.lookup name with
      | none => rw [hl] at h; cases h
      | some t0 =>
        simp only [hl, e2, Except.ok.injEq, Prod.mk.injEq] at h
        simp [goesTo, h1, h2, ← h.1, ← h.2, hl]

/-- the columns of the table and how their cells come about -/
theorem lookup_terms {term : String} (h : term ∈ terms) : ∃ b, (templates.lookup term = some (.property b) ∨ templates.lookup term = some (.condition b)) ∧
    (term ∈ numeric → ∃ u, b = .real u) ∧ (term ∉ numeric → ∃ l, b = .categorical l) := by
  have key : ∀ term ∈ terms, ∃ b ∈ templates.filterMap (fun p => p.2.bounds), (templates.lookup term = some (.property b) ∨ templates.lookup term = some (.condition b)) ∧
      (if term ∈ numeric then (match b with | .real _ => true | _ => false) = true else (match b with | .categorical _ => true | _ => false) = true) := by decide +kernel
  obtain ⟨b, _, h1, h2⟩ := key term h
  refine ⟨b, h1, fun hn => ?_, fun hn => ?_⟩
  · rw [if_pos hn] at h2
    cases b with
    | real u => exact ⟨u, rfl⟩
    | _ => cases h2
  · rw [if_neg hn] at h2
    cases b with
    | categorical u => exact ⟨u, rfl⟩
    | _ => cases h2

/-- the attributes of a measurement are in the list of their kind -/
def Kinds (m : Msr) : Prop := (∀ p ∈ m.properties, ∃ b, templates.lookup p.1 = some (.property b)) ∧ ∀ p ∈ m.conditions, ∃ b, templates.lookup p.1 = some (.condition b)

theorem lookup_none {l : List (String × Cell)} {k : String} : l.lookup k = none ↔ ∀ p ∈ l, p.1 ≠ k := by
  induction l with
  | nil => simp
  | cons p l ih =>
    rw [List.lookup_cons]
    by_cases h : k = p.1
    · subst h; simp
    · have : (k == p.1) = false := by simp [h]
      simp only [this, ih, List.mem_cons, forall_eq_or_imp]
      exact ⟨fun hh => ⟨Ne.symm h, hh⟩, fun hh => hh.2⟩

theorem lookup_append (l m : List (String × Cell)) (k : String) : (l ++ m).lookup k = (l.lookup k).or (m.lookup k) := by
  induction l with
  | nil => simp
  | cons p l ih =>
    rw [List.cons_append, List.lookup_cons, List.lookup_cons]
    cases k == p.1 <;> simp [ih]

/-- what the loop has found for a column -/
def found (m : Msr) (term : String) : Option Cell := (m.properties ++ m.conditions).lookup term

theorem found_property {m : Msr} (hk : Kinds m) {n : String} {b : TBounds} (hn : templates.lookup n = some (.property b)) (c : Cell) (term : String) :
    found { m with properties := m.properties ++ [(n, c)] } term = (found m term).or (if n = term then some c else none) := by
  unfold found
  simp only [lookup_append]
  by_cases h : n = term
  · subst h
    have : m.conditions.lookup n = none := lookup_none.2 (fun p hp e => by
      obtain ⟨b', hb⟩ := hk.2 p hp
      rw [e, hn] at hb
      cases hb)
    rw [this]
    simp
  · have : ([(n, c)] : List (String × Cell)).lookup term = none := lookup_none.2 (fun p hp e => by
      rw [List.mem_singleton] at hp
      subst hp
      exact h e)
    rw [this, if_neg h]
    simp

theorem found_condition {m : Msr} {n : String} (c : Cell) (term : String) :
    found { m with conditions := m.conditions ++ [(n, c)] } term = (found m term).or (if n = term then some c else none) := by
  unfold found
  simp only [lookup_append]
  by_cases h : n = term
  · subst h
    simp
  · have : ([(n, c)] : List (String × Cell)).lookup term = none := lookup_none.2 (fun p hp e => by
      rw [List.mem_singleton] at hp
      subst hp
      exact h e)
    rw [this, if_neg h]
    simp

theorem content_holds {a : RawAttr} {b : TBounds} {c : Cell} {t : Tmpl} (ht : templates.lookup (goesTo a) = some t) (hb : t.bounds = some b) (hm : goesTo a ∈ terms)
    (h : content b a = .ok c) : Holds a c := by
  obtain ⟨b', h1, h2, h3⟩ := lookup_terms hm
  have e : b = b' := by
    rcases h1 with h1 | h1 <;> (rw [h1] at ht; cases ht; exact (Option.some.inj hb).symm)
  subst e
  unfold Holds
  split
  · rename_i hn
    obtain ⟨u, rfl⟩ := h2 hn
    exact h
  · rename_i hn
    obtain ⟨u, rfl⟩ := h3 hn
    simp only [content, Except.ok.injEq] at h
    exact h.symm

theorem addAttrs_spec (term : String) (hm : term ∈ terms) (l : List RawAttr) : ∀ (seen : List String) (m m' : Msr), Kinds m → addAttrs templates nameMap seen m l = .ok m' →
    Kinds m' ∧ ((∃ c, found m term = some c ∧ found m' term = some c) ∨
      found m term = none ∧ ((∃ a c, Reported seen l term a ∧ Holds a c ∧ found m' term = some c) ∨ Unreported seen l term ∧ found m' term = none)) := by
  induction l with
  | nil =>
    intro seen m m' hk h
    simp only [addAttrs, Except.ok.injEq] at h
    subst h
    refine ⟨hk, ?_⟩
    cases found m term with
    | some c => exact .inl ⟨c, rfl, rfl⟩
    | none => exact .inr ⟨rfl, .inr ⟨fun pre a post hl => by simp at hl, rfl⟩⟩
  | cons a l ih =>
    intro seen m m' hk h
    simp only [addAttrs] at h
    by_cases hs : a.name ∈ seen
    · rw [if_pos hs] at h
      obtain ⟨hk', r⟩ := ih seen m m' hk h
      refine ⟨hk', ?_⟩
      rcases r with r | ⟨r0, ⟨b, c, r1, r2, r3⟩ | ⟨r1, r2⟩⟩
      · exact .inl r
      · exact .inr ⟨r0, .inl ⟨b, c, reported_skip hs r1, r2, r3⟩⟩
      · exact .inr ⟨r0, .inr ⟨unreported_skip hs r1, r2⟩⟩
    · rw [if_neg hs] at h
      cases hr : routed templates nameMap a with
      | error e => rw [hr] at h; cases h
      | ok p =>
        obtain ⟨n, t⟩ := p
        obtain ⟨rfl, ht⟩ := routed_spec hr
        rw [hr] at h
        -- one more attribute in one of the lists
        have step : ∀ (m1 : Msr) (c : Cell) (b : TBounds), t.bounds = some b → content b a = .ok c → Kinds m1 →
            found m1 term = (found m term).or (if goesTo a = term then some c else none) →
            addAttrs templates nameMap (a.name :: seen) m1 l = .ok m' →
            Kinds m' ∧ ((∃ c, found m term = some c ∧ found m' term = some c) ∨
              found m term = none ∧ ((∃ b c, Reported seen (a :: l) term b ∧ Holds b c ∧ found m' term = some c) ∨ Unreported seen (a :: l) term ∧ found m' term = none)) := by
          intro m1 c b hb hc hk1 hf h
          obtain ⟨hk', r⟩ := ih _ m1 m' hk1 h
          refine ⟨hk', ?_⟩
          cases hfm : found m term with
          | some c0 =>
            rw [hfm] at hf
            simp only [Option.some_or] at hf
            rcases r with ⟨c1, r1, r2⟩ | ⟨r0, _⟩
            · rw [hf] at r1; cases r1; exact .inl ⟨_, rfl, r2⟩
            · rw [hf] at r0; cases r0
          | none =>
            rw [hfm] at hf
            simp only [Option.none_or] at hf
            refine .inr ⟨rfl, ?_⟩
            by_cases hg : goesTo a = term
            · rw [if_pos hg] at hf
              rcases r with ⟨c1, r1, r2⟩ | ⟨r0, _⟩
              · rw [hf] at r1
                cases r1
                subst hg
                exact .inl ⟨a, c, reported_here hs, content_holds ht hb hm hc, r2⟩
              · rw [hf] at r0; cases r0
            · rw [if_neg hg] at hf
              rcases r with ⟨c1, r1, r2⟩ | ⟨r0, ⟨b, c, r1, r2, r3⟩ | ⟨r1, r2⟩⟩
              · rw [hf] at r1; cases r1
              · exact .inl ⟨b, c, reported_cons hg r1, r2, r3⟩
              · exact .inr ⟨unreported_cons hg r1, r2⟩
        cases t with
        | property b =>
          simp only at h
          cases hc : content b a with
          | error e => rw [hc] at h; cases h
          | ok c =>
            rw [hc] at h
            refine step { m with properties := m.properties ++ [(goesTo a, c)] } c b rfl hc ⟨fun p hp => ?_, hk.2⟩ (found_property hk ht c term) h
            rcases List.mem_append.1 hp with hp | hp
            · exact hk.1 p hp
            · rw [List.mem_singleton] at hp; subst hp; exact ⟨b, ht⟩
        | condition b =>
          simp only at h
          cases hc : content b a with
          | error e => rw [hc] at h; cases h
          | ok c =>
            rw [hc] at h
            refine step { m with conditions := m.conditions ++ [(goesTo a, c)] } c b rfl hc ⟨hk.1, fun p hp => ?_⟩ (found_condition c term) h
            rcases List.mem_append.1 hp with hp | hp
            · exact hk.2 p hp
            · rw [List.mem_singleton] at hp; subst hp; exact ⟨b, ht⟩
        | object =>
          simp only at h
          have hg : goesTo a ≠ term := by
            intro e
            obtain ⟨b, h1, _⟩ := lookup_terms hm
            rw [e] at ht
            rcases h1 with h1 | h1 <;> (rw [h1] at ht; cases ht)
          obtain ⟨hk', r⟩ := ih _ m m' hk h
          refine ⟨hk', ?_⟩
          rcases r with r | ⟨r0, ⟨b, c, r1, r2, r3⟩ | ⟨r1, r2⟩⟩
          · exact .inl r
          · exact .inr ⟨r0, .inl ⟨b, c, reported_cons hg r1, r2, r3⟩⟩
          · exact .inr ⟨r0, .inr ⟨unreported_cons hg r1, r2⟩⟩

/-- the cell of a column, for the attributes of a row: that of the first attribute that belongs there, or None -/
def CellOf (l : List RawAttr) (term : String) (c : Cell) : Prop := (∃ a, Reported [] l term a ∧ Holds a c) ∨ Unreported [] l term ∧ c = .absent

theorem measured_cell {l : List RawAttr} {m : Msr} (h : addAttrs templates nameMap [] ⟨[], []⟩ l = .ok m) {term : String} (hm : term ∈ terms) :
    CellOf l term (pick term (m.properties ++ m.conditions)) := by
  obtain ⟨_, ⟨c, r, _⟩ | ⟨_, ⟨a, c, r1, r2, r3⟩ | ⟨r1, r2⟩⟩⟩ := addAttrs_spec term hm l [] ⟨[], []⟩ m ⟨by simp, by simp⟩ h
  · simp [found] at r
  · exact .inl ⟨a, r1, by unfold pick; unfold found at r3; rw [r3]; exact r2⟩
  · exact .inr ⟨r1, by unfold pick; unfold found at r2; rw [r2]; rfl⟩

/-! ## The objects -/

/-- the spec of a formula -/
def specFor (digit : Char → Bool) (f : List Char) : Spec := { name := Markup.latex digit f, properties := [("Formula", .formula (String.ofList f))] }

/-- the compounds and specs are those of the formulas, each once -/
structure Inv (digit : Char → Bool) (fs : List (List Char)) (o : Objs) : Prop where
  nodup : fs.Nodup
  compounds : o.compounds = fs.zipIdx
  specs : o.specs = fs.map (specFor digit)

theorem zip_lookup (fs : List (List Char)) (hn : fs.Nodup) (f : List Char) : ∀ k i, (fs.zipIdx k).lookup f = some i ↔ k ≤ i ∧ fs[i - k]? = some f := by
  induction fs with
  | nil => intro k i; simp
  | cons g gs ih =>
    intro k i
    rw [List.zipIdx_cons, List.lookup_cons]
    rw [List.nodup_cons] at hn
    by_cases h : f = g
    · subst h
      simp only [beq_self_eq_true, Option.some.injEq]
      constructor
      · rintro rfl; simp
      · rintro ⟨h1, h2⟩
        rcases Nat.eq_zero_or_pos (i - k) with h0 | h0
        · omega
        · obtain ⟨j, hj⟩ : ∃ j, i - k = j + 1 := ⟨i - k - 1, by omega⟩
          rw [hj, List.getElem?_cons_succ] at h2
          exact absurd (List.mem_of_getElem? h2) hn.1
    · have : (f == g) = false := by simp [h]
      simp only [this, ih hn.2]
      constructor
      · rintro ⟨h1, h2⟩
        refine ⟨by omega, ?_⟩
        rw [show i - k = i - (k + 1) + 1 by omega, List.getElem?_cons_succ]; exact h2
      · rintro ⟨h1, h2⟩
        rcases Nat.eq_zero_or_pos (i - k) with h0 | h0
        · rw [h0] at h2; simp at h2; exact absurd h2.symm h
        · rw [show i - k = i - (k + 1) + 1 by omega, List.getElem?_cons_succ] at h2
          exact ⟨by omega, h2⟩

/-- is the formula accepted? (C19) -/
def Elements (table : List (List Char)) (f : List Char) : Prop := ∀ tok, Strings.IsToken f tok → tok ∈ table

/-- what a row does: its run, and at most one new compound -/
theorem addRow_spec {digit : Char → Bool} {table : List (List Char)} {fs : List (List Char)} {o o' : Objs} {r : Row} (hi : Inv digit fs o) (h : addRow digit table o r = .ok o') :
    ∃ fs' i m, Inv digit fs' o' ∧ (fs' = fs ∨ fs' = fs ++ [Markup.clean r.formula]) ∧ fs'[i]? = some (Markup.clean r.formula) ∧
      addAttrs templates nameMap [] ⟨[], []⟩ r.attrs = .ok m ∧ o'.runs = o.runs ++ [⟨i, m⟩] := by
  unfold addRow at h
  simp only at h
  generalize Markup.clean r.formula = f at *
  unfold specOf at h
  cases hl : o.compounds.lookup f with
  | some i =>
    rw [hl] at h
    simp only at h
    rw [hi.compounds] at hl
    have hf := ((zip_lookup fs hi.nodup f 0 i).1 hl).2
    rw [Nat.sub_zero] at hf
    have hs : o.specs[i]? = some (specFor digit f) := by rw [hi.specs, List.getElem?_map, hf]; rfl
    simp only [giveFormula, hs, specFor, List.isEmpty_cons, Bool.false_eq_true, if_false] at h
    cases hm : addAttrs templates nameMap [] ⟨[], []⟩ r.attrs with
    | error e => rw [hm] at h; cases h
    | ok m =>
      rw [hm] at h
      simp only [Except.ok.injEq] at h
      subst h
      exact ⟨fs, i, m, ⟨hi.nodup, hi.compounds, hi.specs⟩, .inl rfl, hf, rfl, rfl⟩
  | none =>
    rw [hl] at h
    simp only at h
    have hnew : f ∉ fs := by
      intro hf
      obtain ⟨i, hi'⟩ := List.getElem?_of_mem hf
      rw [hi.compounds] at hl
      have := (zip_lookup fs hi.nodup f 0 i).2 ⟨Nat.zero_le _, hi'⟩
      rw [hl] at this
      cases this
    have hlen : o.specs.length = fs.length := by rw [hi.specs]; simp
    simp only [giveFormula, List.getElem?_concat_length, List.isEmpty_nil, if_true] at h
    cases hc : Strings.setFormula table none (.str f) with
    | mk st res =>
      rw [hc] at h
      cases res with
      | error e => cases h
      | ok u =>
        simp only at h
        cases hm : addAttrs templates nameMap [] ⟨[], []⟩ r.attrs with
        | error e => rw [hm] at h; cases h
        | ok m =>
          rw [hm] at h
          simp only [Except.ok.injEq] at h
          subst h
          refine ⟨fs ++ [f], o.specs.length, m, ⟨?_, ?_, ?_⟩, .inr rfl, by rw [hlen]; simp, rfl, rfl⟩
          · exact List.nodup_append.2 ⟨hi.nodup, by simp, fun a ha b hb => by rw [List.mem_singleton] at hb; subst hb; exact fun e => hnew (e ▸ ha)⟩
          · simp only [List.zipIdx_append, hi.compounds, hlen, List.zipIdx_cons, List.zipIdx_nil, Nat.zero_add]
          · simp only [List.set_append_right _ _ (Nat.le_refl _), Nat.sub_self, List.set_cons_zero, List.map_append, List.map_cons, List.map_nil, hi.specs, specFor]

theorem addRows_spec {digit : Char → Bool} {table : List (List Char)} (rows : List Row) : ∀ (fs : List (List Char)) (o o' : Objs), Inv digit fs o → addRows digit table o rows = .ok o' →
    ∃ fs' new, Inv digit fs' o' ∧ fs <+: fs' ∧ o'.runs = o.runs ++ new ∧ new.length = rows.length ∧ (∀ f ∈ fs', f ∈ fs ∨ ∃ r ∈ rows, Markup.clean r.formula = f) ∧
      ∀ (k : Nat) r run, rows[k]? = some r → new[k]? = some run → fs'[run.spec]? = some (Markup.clean r.formula) ∧
        addAttrs templates nameMap [] ⟨[], []⟩ r.attrs = .ok run.msr := by
  induction rows with
  | nil =>
    intro fs o o' hi h
    simp only [addRows, Except.ok.injEq] at h
    subst h
    exact ⟨fs, [], hi, List.prefix_rfl, by simp, rfl, fun f hf => .inl hf, fun k r run hr => by simp at hr⟩
  | cons r rows ih =>
    intro fs o o' hi h
    simp only [addRows] at h
    cases h1 : addRow digit table o r with
    | error e => rw [h1] at h; cases h
    | ok o1 =>
      rw [h1] at h
      obtain ⟨fs1, i, m, hi1, hfs, hfi, hm, hr⟩ := addRow_spec hi h1
      obtain ⟨fs', new, hi', hp, hn, hlen, hin, hk⟩ := ih fs1 o1 o' hi1 h
      have hp1 : fs <+: fs1 := by
        rcases hfs with rfl | rfl
        · exact List.prefix_rfl
        · exact List.prefix_append _ _
      refine ⟨fs', ⟨i, m⟩ :: new, hi', hp1.trans hp, by rw [hn, hr, List.append_assoc]; rfl, by simp [hlen], fun f hf => ?_, fun k r' run hr' hrun => ?_⟩
      · rcases hin f hf with h | ⟨r', hr', h⟩
        · rcases hfs with rfl | rfl
          · exact .inl h
          · rcases List.mem_append.1 h with h | h
            · exact .inl h
            · rw [List.mem_singleton] at h; exact .inr ⟨r, List.mem_cons_self .., h.symm⟩
        · exact .inr ⟨r', List.mem_cons_of_mem _ hr', h⟩
      · cases k with
        | zero =>
          simp only [List.getElem?_cons_zero, Option.some.injEq] at hr' hrun
          subst hr' hrun
          obtain ⟨t, rfl⟩ := hp
          exact ⟨by rw [List.getElem?_append_left (List.getElem?_eq_some_iff.1 hfi).1]; exact hfi, hm⟩
        | succ k =>
          rw [List.getElem?_cons_succ] at hr' hrun
          exact hk k r' run hr' hrun

theorem nodup_inj {α : Type} {l : List α} (h : l.Nodup) {i j : Nat} (hi : i < l.length) (hj : j < l.length) (e : l[i] = l[j]) : i = j := by
  rcases Nat.lt_trichotomy i j with hlt | rfl | hlt
  · exact absurd e (List.pairwise_iff_getElem.1 h i j hi hj hlt)
  · rfl
  · exact absurd e.symm (List.pairwise_iff_getElem.1 h j i hj hi hlt)

theorem inv_start (digit : Char → Bool) : Inv digit [] ⟨[], [], []⟩ := ⟨List.nodup_nil, rfl, rfl⟩

/-- C76: there is one run for each row, in order; the spec of a run is named by the formula, marked up, and has the clean formula as its one property. Runs share a spec
exactly if their clean formulas are the same; there is no spec without a run. -/
theorem C76_objects (digit : Char → Bool) (table : List (List Char)) (rows : List Row) (o : Objs) (h : makeObjects digit table rows = .ok o) :
    o.runs.length = rows.length ∧
    (∀ (k : Nat) row run, rows[k]? = some row → o.runs[k]? = some run → ∃ s, o.specs[run.spec]? = some s ∧ s.name = Markup.latex digit row.formula ∧
      s.properties = [("Formula", .formula (String.ofList (Markup.clean row.formula)))]) ∧
    (∀ (k k' : Nat) row row' run run', rows[k]? = some row → o.runs[k]? = some run → rows[k']? = some row' → o.runs[k']? = some run' →
      (run.spec = run'.spec ↔ Markup.clean row.formula = Markup.clean row'.formula)) ∧
    ∀ i < o.specs.length, ∃ run ∈ o.runs, run.spec = i := by
  obtain ⟨fs, new, hi, _, hn, hlen, hin, hk⟩ := addRows_spec rows [] _ o (inv_start digit) h
  simp only [List.nil_append] at hn
  rw [hn]
  refine ⟨hlen, fun k row run hr hrun => ?_, fun k k' row row' run run' hr hrun hr' hrun' => ?_, fun i hlt => ?_⟩
  · have := (hk k row run hr hrun).1
    refine ⟨specFor digit (Markup.clean row.formula), by rw [hi.specs, List.getElem?_map, this]; rfl, ?_, rfl⟩
    exact Markup.C70_latex_clean digit row.formula
  · have h1 := (hk k row run hr hrun).1
    have h2 := (hk k' row' run' hr' hrun').1
    constructor
    · intro e; rw [e, h2] at h1; exact (Option.some.inj h1).symm
    · intro e
      rw [e] at h1
      obtain ⟨l1, e1⟩ := List.getElem?_eq_some_iff.1 h1
      obtain ⟨l2, e2⟩ := List.getElem?_eq_some_iff.1 h2
      exact nodup_inj hi.nodup _ _ (e1.trans e2.symm)
  · have hl : i < fs.length := by rw [hi.specs, List.length_map] at hlt; exact hlt
    rcases hin fs[i] (List.getElem_mem hl) with hf | ⟨r, hr, hf⟩
    · simp at hf
    · obtain ⟨k, hk'⟩ := List.getElem?_of_mem hr
      have hlt' : k < new.length := by rw [hlen]; exact (List.getElem?_eq_some_iff.1 hk').1
      have hrun : new[k]? = some new[k] := List.getElem?_eq_getElem hlt'
      have h1 := (hk k r _ hk' hrun).1
      rw [hf] at h1
      obtain ⟨l1, e1⟩ := List.getElem?_eq_some_iff.1 h1
      exact ⟨new[k], List.getElem_mem hlt', nodup_inj hi.nodup _ _ e1⟩

/-! ## The table -/

theorem mapE_ok {α β : Type} {f : α → Except PyErr β} {g : α → β} (l : List α) (h : ∀ a ∈ l, f a = .ok (g a)) : mapE f l = .ok (l.map g) := by
  induction l with
  | nil => rfl
  | cons a l ih =>
    simp only [mapE, h a (List.mem_cons_self ..), ih (fun b hb => h b (List.mem_cons_of_mem _ hb)), List.map_cons]

/-- the columns behind the first two -/
def termColumns (fmt : String → String) : List Column :=
  [⟨["Chemical", "Band gap"], some (.real (fmt "eV"))⟩, ⟨["Chemical", "Temperature derivative of band gap"], some (.real (fmt "eV/K"))⟩, ⟨["Chemical", "Temperature"], some (.real (fmt "K"))⟩,
   ⟨["Chemical", "Color"], some .categorical⟩, ⟨["Chemical", "Lasing"], some .categorical⟩, ⟨["Chemical", "Cathodoluminescence"], some .categorical⟩,
   ⟨["Chemical", "Mechanical luminescence"], some .categorical⟩, ⟨["Chemical", "Photoluminescence"], some .categorical⟩, ⟨["Chemical", "Electroluminescence"], some .categorical⟩,
   ⟨["Chemical", "Thermoluminescence"], some .categorical⟩, ⟨["Chemical", "Transition"], some .categorical⟩, ⟨["Chemical", "Bands"], some .categorical⟩,
   ⟨["Chemical", "Electric field polarization"], some .categorical⟩, ⟨["Chemical", "Crystallinity"], some .categorical⟩, ⟨["Chemical", "Morphology"], some .categorical⟩,
   ⟨["Chemical", "Phase"], some .categorical⟩, ⟨["Chemical", "Crystal system"], some .categorical⟩]

/-- the columns of the table -/
def columns (fmt : String → String) : List Column := ⟨["Chemical", "Display name"], none⟩ :: ⟨["Chemical", "Formula"], some .composition⟩ :: termColumns fmt

theorem columns_ok (fmt : String → String) : mapE (column fmt) terms = .ok (termColumns fmt) := rfl

/-- the row of the table for a row of the data -/
def RowOf (digit : Char → Bool) (row : Row) (cells : List Cell) : Prop :=
  ∃ rest, cells = .text (String.ofList (Markup.latex digit row.formula)) :: .formula (String.ofList (Markup.clean row.formula)) :: rest ∧ rest.length = 17 ∧
    ∀ (j : Nat) term, terms[j]? = some term → ∃ c, rest[j]? = some c ∧ CellOf (reported row) term c

/-- C76: the table has a row for each row of the data, in order. It begins with the formula, marked up and clean; then there is, in the column of each term, the first of
the row's attributes that belongs there (only the first attribute of each name counts), or None. The columns are the same whatever the data. -/
theorem C76_table (digit : Char → Bool) (table : List (List Char)) (fmt : String → String) (rows : List Row) (hne : rows ≠ []) (o : Objs) (h : makeObjects digit table rows = .ok o) :
    ∃ content, makeTable fmt o = .ok (columns fmt, content) ∧ content.length = rows.length ∧
      ∀ (k : Nat) row, rows[k]? = some row → ∃ cells, content[k]? = some cells ∧ RowOf digit row cells := by
  obtain ⟨fs, new, hi, _, hn, hlen, hin, hk⟩ := addRows_spec rows [] _ o (inv_start digit) h
  simp only [List.nil_append] at hn
  -- every run's spec is there
  have hspec : ∀ (k : Nat) row run, rows[k]? = some row → o.runs[k]? = some run → o.specs[run.spec]? = some (specFor digit (Markup.clean row.formula)) := by
    intro k row run hr hrun
    rw [hn] at hrun
    rw [hi.specs, List.getElem?_map, (hk k row run hr hrun).1]; rfl
  have hall : ∀ run ∈ o.runs, ∃ f, o.specs[run.spec]? = some (specFor digit f) := by
    intro run hrun
    obtain ⟨k, hk'⟩ := List.getElem?_of_mem hrun
    have : k < rows.length := by rw [← hlen, ← hn]; exact (List.getElem?_eq_some_iff.1 hk').1
    exact ⟨_, hspec k rows[k] run (List.getElem?_eq_getElem this) hk'⟩
  have hchem : chemName o = .ok "Formula" := by
    unfold chemName
    cases hr : o.runs with
    | nil =>
      rw [← hn, hr] at hlen
      cases rows with
      | nil => exact absurd rfl hne
      | cons => simp at hlen
    | cons run rest =>
      obtain ⟨f, hf⟩ := hall run (by rw [hr]; exact List.mem_cons_self ..)
      simp [List.findSome?_cons, hf, specFor]
  let g : Run → List Cell := fun r => match o.specs[r.spec]? with
    | none => []
    | some s => .text (String.ofList s.name) :: pick "Formula" s.properties :: terms.map (fun t => pick t (r.msr.properties ++ r.msr.conditions))
  have hrows : mapE (tableRow o.specs "Formula") o.runs = .ok (o.runs.map g) := by
    refine mapE_ok _ (fun run hrun => ?_)
    obtain ⟨f, hf⟩ := hall run hrun
    simp only [tableRow, hf, g]
  refine ⟨o.runs.map g, ?_, by rw [List.length_map, hn, hlen], fun k row hr => ?_⟩
  · unfold makeTable
    rw [hchem]
    simp only [columns_ok, hrows, columns]
  · have hlt : k < o.runs.length := by rw [hn, hlen]; exact (List.getElem?_eq_some_iff.1 hr).1
    have hrun : o.runs[k]? = some o.runs[k] := List.getElem?_eq_getElem hlt
    have hs := hspec k row _ hr hrun
    have hm := (hk k row o.runs[k] hr (by rw [← hn]; exact hrun)).2
    refine ⟨g o.runs[k], by rw [List.getElem?_map, hrun]; rfl, terms.map (fun t => pick t (o.runs[k].msr.properties ++ o.runs[k].msr.conditions)), ?_, by simp [terms], fun j term hj => ?_⟩
    · simp only [g, hs, specFor, Markup.C70_latex_clean]
      congr 2
    · exact ⟨_, by rw [List.getElem?_map, hj]; rfl, measured_cell hm (List.mem_of_getElem? hj)⟩

/-! ## The display table -/

/-- `real_mapper` gives nominal and normal numbers -/
def Mapped (a : RawAttr) : Prop := ∀ c, a.real = .ok c → (∃ x u, c = .nominal x u) ∨ ∃ x s u, c = .normal x s u

/-- the headers of the structured table as they are displayed -/
def heads (fmt : String → String) : List String := (columns fmt).map (fun c => match headerOf c.bounds with | .ok w => "~".intercalate (c.name ++ [w]) | .error _ => "")

theorem heads_ok (fmt : String → String) : Headers (columns fmt) (heads fmt) := by
  refine ⟨by simp [heads], fun j c hc => ?_⟩
  have hb : ∀ c ∈ columns fmt, ∃ w, headerOf c.bounds = .ok w := by
    intro c hc
    simp only [columns, termColumns, List.mem_cons, List.not_mem_nil, or_false] at hc
    rcases hc with rfl | rfl | rfl | rfl | rfl | rfl | rfl | rfl | rfl | rfl | rfl | rfl | rfl | rfl | rfl | rfl | rfl | rfl | rfl <;> exact ⟨_, rfl⟩
  obtain ⟨w, hw⟩ := hb c (List.mem_of_getElem? hc)
  exact ⟨w, word_iff.1 hw, by simp [heads, hc, hw]⟩

theorem heads_gap (fmt : String → String) : BandGap (heads fmt) 2 := by
  refine ⟨⟨"~".intercalate ["Chemical", "Band gap", "Mean(" ++ fmt "eV" ++ ")"], rfl, "Chemical~".toList, ("~Mean(" ++ fmt "eV" ++ ")").toList, ?_⟩, fun j hj h hh => ?_⟩
  · have e : "~".intercalate ["Chemical", "Band gap", "Mean(" ++ fmt "eV" ++ ")"] = "Chemical" ++ "~" ++ "Band gap" ++ "~" ++ ("Mean(" ++ fmt "eV" ++ ")") := rfl
    rw [e]
    simp [String.toList_append]
  · rw [← within_iff]
    rcases Nat.lt_succ_iff_lt_or_eq.1 hj with hj | rfl
    · obtain rfl : j = 0 := by omega
      have : h = "~".intercalate ["Chemical", "Display name", "Label"] := (Option.some.inj hh).symm
      subst this
      decide +kernel
    · have : h = "~".intercalate ["Chemical", "Formula", "Formula"] := (Option.some.inj hh).symm
      subst this
      decide +kernel

/-- a cell of the table is of a class that can be displayed -/
theorem cell_shown {l : List RawAttr} (hr : ∀ a ∈ l, Mapped a) {term : String} {c : Cell} (h : CellOf l term c) : (∀ n, c ≠ .other n) ∧ (term = "Band gap" → ∃ s, Spreads c s) := by
  rcases h with ⟨a, ⟨pre, post, hl, _, _, hg, _⟩, hh⟩ | ⟨_, rfl⟩
  · unfold Holds at hh
    have ha : a ∈ l := by rw [hl]; simp
    split at hh
    · rcases hr a ha c hh with ⟨x, u, rfl⟩ | ⟨x, s, u, rfl⟩
      · exact ⟨by simp, fun _ => ⟨_, spreads_iff.1 rfl⟩⟩
      · exact ⟨by simp, fun _ => ⟨_, spreads_iff.1 rfl⟩⟩
    · rename_i hn
      subst hh
      refine ⟨by simp, fun e => absurd ?_ hn⟩
      rw [hg, e]
      decide
  · exact ⟨by simp, fun _ => ⟨_, spreads_iff.1 rfl⟩⟩

/-- C76: whatever the data, the display table can be made of it. It has a line for each row of the data, showing the cells of its row in the table, and behind the band gap its uncertainty. -/
theorem C76_display (digit : Char → Bool) (table : List (List Char)) (fmt : String → String) (rows : List Row) (hne : rows ≠ []) (hr : ∀ row ∈ rows, ∀ a ∈ reported row, Mapped a)
    (o : Objs) (h : makeObjects digit table rows = .ok o) :
    ∃ content hs out, makeTable fmt o = .ok (columns fmt, content) ∧ displayTable (columns fmt) content = .ok (hs, out) ∧ hs.length = 20 ∧ out.length = rows.length ∧
      hs[3]? = some ("~".intercalate ["Chemical", "Band gap", "Std Deviation(" ++ fmt "eV" ++ ")"]) ∧
      ∀ (k : Nat) row, rows[k]? = some row → ∃ cells line, content[k]? = some cells ∧ RowOf digit row cells ∧ out[k]? = some line ∧ RowShown 2 cells line := by
  obtain ⟨content, h1, h2, h3⟩ := C76_table digit table fmt rows hne o h
  have hrow : ∀ cells ∈ content, (∀ cell ∈ cells, ∀ n, cell ≠ .other n) ∧ ∃ cell, cells[2]? = some cell ∧ ∃ s, Spreads cell s := by
    intro cells hc
    obtain ⟨k, hk⟩ := List.getElem?_of_mem hc
    have hlt : k < rows.length := by rw [← h2]; exact (List.getElem?_eq_some_iff.1 hk).1
    obtain ⟨cells', e, rest, rfl, hlen, hcell⟩ := h3 k rows[k] (List.getElem?_eq_getElem hlt)
    rw [hk] at e
    cases e
    have hm := hr rows[k] (List.getElem_mem hlt)
    refine ⟨fun cell hcell' n => ?_, ?_⟩
    · rcases List.mem_cons.1 hcell' with rfl | hcell'
      · simp
      · rcases List.mem_cons.1 hcell' with rfl | hcell'
        · simp
        · obtain ⟨j, hj⟩ := List.getElem?_of_mem hcell'
          have hjl : j < terms.length := by have := (List.getElem?_eq_some_iff.1 hj).1; rw [hlen] at this; exact this
          obtain ⟨c, e, hc⟩ := hcell j terms[j] (List.getElem?_eq_getElem hjl)
          rw [hj] at e
          cases e
          exact (cell_shown hm hc).1 n
    · obtain ⟨c, e, hc⟩ := hcell 0 "Band gap" rfl
      exact ⟨c, e, (cell_shown hm hc).2 rfl⟩
  obtain ⟨⟨hs, out⟩, hd⟩ := (C72_display_accepts (columns fmt) content).2 ⟨heads fmt, heads_ok fmt, 2, _, fmt "eV", heads_gap fmt, rfl, rfl, hrow⟩
  obtain ⟨heads', i, c, u, k1, k2, k3, k4, k5, k6, k7, k8, k9, k10, k11⟩ := C72_display _ _ _ _ hd
  have hi : i = 2 := by
    have hh : heads' = heads fmt := by
      have a1 := headers_iff.2 k1
      have a2 := headers_iff.2 (heads_ok fmt)
      rw [a1] at a2
      exact Except.ok.inj a2
    subst hh
    have b1 := bandGap_iff.2 k2
    have b2 := bandGap_iff.2 (heads_gap fmt)
    rw [b1] at b2
    exact Option.some.inj b2
  subst hi
  have hc : c = ⟨["Chemical", "Band gap"], some (.real (fmt "eV"))⟩ := (Option.some.inj k3).symm
  subst hc
  have hu : u = fmt "eV" := by
    simp only [Option.some.injEq, Tables.Bounds.real.injEq] at k4
    exact k4.symm
  subst hu
  refine ⟨content, hs, out, h1, hd, by rw [k5]; rfl, by rw [k9, h2], k7, fun k row hk => ?_⟩
  obtain ⟨cells, e1, e2⟩ := h3 k row hk
  obtain ⟨line, e3, e4⟩ := k10 k cells e1
  exact ⟨cells, line, e1, e2, e3, e4⟩

/-! ## What is accepted -/

/-- the names the data may use -/
def known : List String := terms ++ ["Sample preparation", "Chemical", "Band gap measurement"]

/-- an attribute that can be read: a known name, and a number in a column of numbers -/
def Readable (a : RawAttr) : Prop := a.name ∈ known ∧ (a.name ∈ numeric → ∃ c, a.real = .ok c)

theorem lookup_known (n : String) : n ∈ known ∨ n = "Formula" ∨ templates.lookup n = none := by
  by_cases h : n ∈ templates.map Prod.fst
  · have : ∀ n ∈ templates.map Prod.fst, n ∈ known ∨ n = "Formula" := by decide +kernel
    rcases this n h with h | h
    · exact .inl h
    · exact .inr (.inl h)
  · refine .inr (.inr ?_)
    rw [List.lookup_eq_none_iff]
    intro p hp
    rw [bne_iff_ne]
    exact fun e => h (List.mem_map.2 ⟨p, hp, e.symm⟩)

/-- what becomes of one attribute -/
theorem routed_known {a : RawAttr} (h : a.name ∈ known) : ∃ t, routed templates nameMap a = .ok (goesTo a, t) ∧
    (t = .object ∨ ∃ b, (t = .property b ∨ t = .condition b) ∧ content b a = if a.name ∈ numeric then a.real else .ok (.category a.value)) := by
  obtain ⟨name, value, real⟩ := a
  simp only [known, terms, List.cons_append, List.nil_append, List.mem_cons, List.not_mem_nil, or_false] at h
  rcases h with rfl | rfl | rfl | rfl | rfl | rfl | rfl | rfl | rfl | rfl | rfl | rfl | rfl | rfl | rfl | rfl | rfl | rfl | rfl | rfl
  all_goals first
    | exact ⟨_, rfl, .inr ⟨_, .inl rfl, rfl⟩⟩
    | exact ⟨_, rfl, .inr ⟨_, .inr rfl, rfl⟩⟩
    | exact ⟨_, rfl, .inl rfl⟩
    | skip
  · have e1 : templates.lookup "Transition" = some (.condition (.categorical transitions)) := by decide +kernel
    have e2 : nameMap.lookup "Transition" = some "Bands" := by decide +kernel
    obtain ⟨l, e3⟩ : ∃ l, templates.lookup "Bands" = some (.condition (.categorical l)) := ⟨_, rfl⟩
    by_cases hv : value ∈ transitions
    · exact ⟨.condition (.categorical transitions), by simp [routed, e1, e2, Tmpl.bounds, hv, goesTo], .inr ⟨_, .inr rfl, rfl⟩⟩
    · exact ⟨.condition (.categorical l), by simp [routed, e1, e2, e3, Tmpl.bounds, hv, goesTo], .inr ⟨_, .inr rfl, rfl⟩⟩
  · have e1 : templates.lookup "Phase" = some (.condition (.categorical phases)) := by decide +kernel
    have e2 : nameMap.lookup "Phase" = some "Crystal system" := by decide +kernel
    obtain ⟨l, e3⟩ : ∃ l, templates.lookup "Crystal system" = some (.condition (.categorical l)) := ⟨_, rfl⟩
    by_cases hv : value ∈ phases
    · exact ⟨.condition (.categorical phases), by simp [routed, e1, e2, Tmpl.bounds, hv, goesTo], .inr ⟨_, .inr rfl, rfl⟩⟩
    · exact ⟨.condition (.categorical l), by simp [routed, e1, e2, e3, Tmpl.bounds, hv, goesTo], .inr ⟨_, .inr rfl, rfl⟩⟩

/-- one step of the loop, for an attribute that counts -/
theorem step_readable {a : RawAttr} (h : Readable a) {seen : List String} (hs : a.name ∉ seen) (m : Msr) (l : List RawAttr) :
    ∃ m1, addAttrs templates nameMap seen m (a :: l) = addAttrs templates nameMap (a.name :: seen) m1 l := by
  obtain ⟨t, hr, h1⟩ := routed_known h.1
  simp only [addAttrs, if_neg hs, hr]
  rcases h1 with rfl | ⟨b, hb, hc⟩
  · exact ⟨m, rfl⟩
  · have hc' : ∃ c, content b a = .ok c := by
      rw [hc]
      split
      · rename_i hn; exact h.2 hn
      · exact ⟨_, rfl⟩
    obtain ⟨c, hc'⟩ := hc'
    rcases hb with rfl | rfl <;> simp only [hc'] <;> exact ⟨_, rfl⟩

theorem step_unreadable {a : RawAttr} (h : ¬ Readable a) {seen : List String} (hs : a.name ∉ seen) (m : Msr) (l : List RawAttr) :
    ∃ e, addAttrs templates nameMap seen m (a :: l) = .error e ∧ (a.name ∉ known → e = .keyError) ∧ (a.name ∈ known → a.real = .error e) := by
  rcases lookup_known a.name with hk | hk | hk
  · have hn : a.name ∈ numeric ∧ ¬ ∃ c, a.real = .ok c := by
      unfold Readable at h
      rw [Classical.not_and_iff_not_or_not] at h
      rcases h with h | h
      · exact absurd hk h
      · exact Classical.not_imp.1 h
    obtain ⟨t, hr, h1⟩ := routed_known hk
    cases hre : a.real with
    | ok c => exact absurd ⟨c, hre⟩ hn.2
    | error e =>
      refine ⟨e, ?_, fun h => absurd hk h, fun _ => rfl⟩
      simp only [addAttrs, if_neg hs, hr]
      rcases h1 with rfl | ⟨b, hb, hc⟩
      · have : ∀ n ∈ numeric, ∃ b ∈ [TBounds.real "eV", .real "K", .real "eV/K"], templates.lookup n = some (.property b) ∨ templates.lookup n = some (.condition b) := by decide +kernel
        obtain ⟨b, _, hb⟩ := this _ hn.1
        have hg := (routed_spec hr).2
        have hgo : goesTo a = a.name := by
          have : a.name ≠ "Phase" ∧ a.name ≠ "Transition" := by
            constructor <;> intro e <;> (have := hn.1; rw [e] at this; revert this; decide)
          simp [goesTo, this]
        rw [hgo] at hg
        rw [hg] at hb
        rcases hb with hb | hb <;> cases hb
      · rw [if_pos hn.1, hre] at hc
        rcases hb with rfl | rfl <;> simp only [hc]
  · refine ⟨.keyError, ?_, fun _ => rfl, fun h => absurd h (by rw [hk]; decide +kernel)⟩
    have e1 : templates.lookup "Formula" = some (.property .composition) := by decide +kernel
    have e2 : nameMap.lookup "Formula" = none := by decide +kernel
    simp only [addAttrs, if_neg hs, routed]
    rw [hk]
    simp only [e1, e2, content]
  · refine ⟨.keyError, ?_, fun _ => rfl, fun h => ?_⟩
    · simp only [addAttrs, if_neg hs, routed, hk]
    · have : ∀ n ∈ known, templates.lookup n ≠ none := by decide +kernel
      exact absurd hk (this _ h)

/-- every attribute that counts can be read -/
def AllReadable (seen : List String) (l : List RawAttr) : Prop := ∀ pre a post, l = pre ++ a :: post → a.name ∉ seen → (∀ x ∈ pre, x.name ≠ a.name) → Readable a

theorem addAttrs_accepts (l : List RawAttr) : ∀ (seen : List String) (m : Msr), (∃ m', addAttrs templates nameMap seen m l = .ok m') ↔ AllReadable seen l := by
  induction l with
  | nil => intro seen m; exact ⟨fun _ pre a post hl => by simp at hl, fun _ => ⟨m, rfl⟩⟩
  | cons a l ih =>
    intro seen m
    by_cases hs : a.name ∈ seen
    · have e : addAttrs templates nameMap seen m (a :: l) = addAttrs templates nameMap seen m l := by simp only [addAttrs, if_pos hs]
      rw [e, ih]
      constructor
      · intro h pre b post hl hb hp
        cases pre with
        | nil => simp only [List.nil_append, List.cons.injEq] at hl; rw [← hl.1] at hb; exact absurd hs hb
        | cons x pre =>
          simp only [List.cons_append, List.cons.injEq] at hl
          exact h pre b post hl.2 hb (fun y hy => hp y (List.mem_cons_of_mem _ hy))
      · intro h pre b post hl hb hp
        refine h (a :: pre) b post (by rw [hl]; rfl) hb (fun x hx => ?_)
        rcases List.mem_cons.1 hx with rfl | hx
        · exact fun e => hb (e ▸ hs)
        · exact hp x hx
    · by_cases ha : Readable a
      · obtain ⟨m1, e⟩ := step_readable ha hs m l
        rw [e, ih]
        constructor
        · intro h pre b post hl hb hp
          cases pre with
          | nil => simp only [List.nil_append, List.cons.injEq] at hl; rw [← hl.1]; exact ha
          | cons x pre =>
            simp only [List.cons_append, List.cons.injEq] at hl
            refine h pre b post hl.2 ?_ (fun y hy => hp y (List.mem_cons_of_mem _ hy))
            have := hp x (List.mem_cons_self ..)
            rw [← hl.1] at this
            simp only [List.mem_cons, not_or]
            exact ⟨Ne.symm this, hb⟩
        · intro h pre b post hl hb hp
          simp only [List.mem_cons, not_or] at hb
          refine h (a :: pre) b post (by rw [hl]; rfl) hb.2 (fun x hx => ?_)
          rcases List.mem_cons.1 hx with rfl | hx
          · exact Ne.symm hb.1
          · exact hp x hx
      · obtain ⟨e, he, _⟩ := step_unreadable ha hs m l
        rw [he]
        exact ⟨fun ⟨_, h'⟩ => (nomatch h'), fun h => absurd (h [] a l rfl hs (by simp)) ha⟩

theorem addRow_accepts {digit : Char → Bool} {table : List (List Char)} {fs : List (List Char)} {o : Objs} (hi : Inv digit fs o) (hf : ∀ f ∈ fs, Elements table f) (r : Row) :
    (∃ o', addRow digit table o r = .ok o') ↔ Elements table (Markup.clean r.formula) ∧ AllReadable [] r.attrs := by
  rw [← addAttrs_accepts r.attrs [] ⟨[], []⟩]
  unfold addRow specOf
  simp only
  generalize Markup.clean r.formula = f at *
  cases hl : o.compounds.lookup f with
  | some i =>
    rw [hi.compounds] at hl
    have hfi := ((zip_lookup fs hi.nodup f 0 i).1 hl).2
    rw [Nat.sub_zero] at hfi
    have hs : o.specs[i]? = some (specFor digit f) := by rw [hi.specs, List.getElem?_map, hfi]; rfl
    simp only [giveFormula, hs, specFor, List.isEmpty_cons, Bool.false_eq_true, if_false]
    have := hf f (List.mem_of_getElem? hfi)
    cases addAttrs templates nameMap [] ⟨[], []⟩ r.attrs <;> simp [this]
  | none =>
    simp only [giveFormula, List.getElem?_concat_length, List.isEmpty_nil, if_true]
    by_cases he : Elements table f
    · rw [(Strings.C19_accept_iff table none f).1 he]
      cases addAttrs templates nameMap [] ⟨[], []⟩ r.attrs <;> simp [he]
    · rw [(Strings.C19_accept_iff table none f).2.1 he]
      simp [he]

theorem addRows_accepts {digit : Char → Bool} {table : List (List Char)} (rows : List Row) : ∀ (fs : List (List Char)) (o : Objs), Inv digit fs o → (∀ f ∈ fs, Elements table f) →
    ((∃ o', addRows digit table o rows = .ok o') ↔ ∀ r ∈ rows, Elements table (Markup.clean r.formula) ∧ AllReadable [] r.attrs) := by
  induction rows with
  | nil => intro fs o _ _; simp [addRows]
  | cons r rows ih =>
    intro fs o hi hf
    have ha := addRow_accepts hi hf r
    simp only [addRows, List.mem_cons, forall_eq_or_imp]
    cases h1 : addRow digit table o r with
    | error e =>
      rw [h1] at ha
      simp only [reduceCtorEq, exists_false, false_iff] at ha ⊢
      exact fun h => ha h.1
    | ok o1 =>
      rw [h1] at ha
      have hr := ha.1 ⟨_, rfl⟩
      obtain ⟨fs1, i, m, hi1, hfs, _⟩ := addRow_spec hi h1
      simp only [ih fs1 o1 hi1 (fun f hf' => by
        rcases hfs with rfl | rfl
        · exact hf f hf'
        · rcases List.mem_append.1 hf' with h | h
          · exact hf f h
          · rw [List.mem_singleton] at h; rw [h]; exact hr.1)]
      exact ⟨fun h => ⟨hr, h⟩, fun h => h.2⟩

/-- C76: the data are accepted exactly if every formula, clean, is one of known elements, and every attribute (the first of each name) has a known name and, in a column of
numbers, a number. -/
theorem C76_accepts (digit : Char → Bool) (table : List (List Char)) (rows : List Row) :
    (∃ o, makeObjects digit table rows = .ok o) ↔ ∀ r ∈ rows, Elements table (Markup.clean r.formula) ∧
      ∀ pre a post, reported r = pre ++ a :: post → (∀ x ∈ pre, x.name ≠ a.name) → Readable a := by
  unfold makeObjects
  rw [addRows_accepts rows [] _ (inv_start digit) (by simp)]
  simp [AllReadable, attrs_reported]

/-- C76: an unknown name is a KeyError, as is the name "Formula". -/
theorem C76_unknown (digit : Char → Bool) (table : List (List Char)) (r : Row) (a : RawAttr) (l : List RawAttr) (hr : reported r = a :: l) (hf : Elements table (Markup.clean r.formula))
    (ha : a.name ∉ known) (rows : List Row) : makeObjects digit table (r :: rows) = .error .keyError := by
  obtain ⟨e, he, hk, _⟩ := step_unreadable (a := a) (fun h => ha h.1) (seen := []) (by simp) ⟨[], []⟩ l
  have := hk ha
  subst this
  simp only [makeObjects, addRows, addRow, specOf, List.lookup_nil, giveFormula, List.nil_append, List.length_nil, List.getElem?_cons_zero, List.isEmpty_nil, if_true,
    (Strings.C19_accept_iff table none _).1 hf, attrs_reported, hr, he]

/-! ## What is lost, and what is there twice -/

/-- C76 read as "every reported value is in the table" is false: of a phase and a crystal system, both reported as phases, the second is lost. (The full data have 73 such
attributes, that of lead dioxide among them.) -/
theorem C76_lost_counterexample :
    ((makeObjects Markup.ascii [['P', 'b'], ['O']] [⟨['P', 'b', '1', 'O', '2'], [⟨⟨"Phase", "A", .error .keyError⟩, []⟩, ⟨⟨"Phase", "Orthorhombic", .error .keyError⟩, []⟩]⟩]).bind
      (makeTable id)).map (fun t => t.2.map (fun cells => (cells[17]?, cells[18]?))) = .ok [(some (.category "A"), some .absent)] ∧
      goesTo ⟨"Phase", "Orthorhombic", .error .keyError⟩ = "Crystal system" ∧ terms[15]? = some "Phase" ∧ terms[16]? = some "Crystal system" :=
  ⟨by decide +kernel, by decide +kernel, rfl, rfl⟩

/-- C76: if no attribute is called "Crystal system" or "Bands", no measurement has two attributes of a name. -/
theorem C76_once_partial (l : List RawAttr) (hl : ∀ a ∈ l, a.name ≠ "Crystal system" ∧ a.name ≠ "Bands") (m : Msr) (h : addAttrs templates nameMap [] ⟨[], []⟩ l = .ok m) :
    (m.properties.map Prod.fst).Nodup ∧ (m.conditions.map Prod.fst).Nodup := by
  -- the name an attribute had in the data
  have back : ∀ a b : RawAttr, (a.name ≠ "Crystal system" ∧ a.name ≠ "Bands") → (b.name ≠ "Crystal system" ∧ b.name ≠ "Bands") → goesTo a = goesTo b → a.name = b.name := by
    intro a b ha hb e
    have cases : ∀ x : RawAttr, (x.name = "Phase" ∧ goesTo x = "Crystal system") ∨ (x.name = "Transition" ∧ goesTo x = "Bands") ∨ goesTo x = x.name := by
      intro x
      unfold goesTo
      split
      · rename_i h; exact .inl ⟨h.1, rfl⟩
      · split
        · rename_i h; exact .inr (.inl ⟨h.1, rfl⟩)
        · exact .inr (.inr rfl)
    rcases cases a with h1 | h1 | h1 <;> rcases cases b with h2 | h2 | h2
    · rw [h1.1, h2.1]
    · rw [h1.2, h2.2] at e; exact absurd e (by decide)
    · rw [h1.2, h2] at e; exact absurd e.symm hb.1
    · rw [h1.2, h2.2] at e; exact absurd e (by decide)
    · rw [h1.1, h2.1]
    · rw [h1.2, h2] at e; exact absurd e.symm hb.2
    · rw [h1, h2.2] at e; exact absurd e ha.1
    · rw [h1, h2.2] at e; exact absurd e ha.2
    · rw [← h1, e, h2]
  have key : ∀ (l : List RawAttr) (seen : List RawAttr) (m m' : Msr), (∀ a ∈ l ++ seen, a.name ≠ "Crystal system" ∧ a.name ≠ "Bands") →
      (∀ p ∈ m.properties ++ m.conditions, ∃ a ∈ seen, goesTo a = p.1) → (m.properties.map Prod.fst).Nodup → (m.conditions.map Prod.fst).Nodup →
      addAttrs templates nameMap (seen.map RawAttr.name) m l = .ok m' → (m'.properties.map Prod.fst).Nodup ∧ (m'.conditions.map Prod.fst).Nodup := by
    intro l
    induction l with
    | nil => intro seen m m' _ _ h1 h2 h; simp only [addAttrs, Except.ok.injEq] at h; subst h; exact ⟨h1, h2⟩
    | cons a l ih =>
      intro seen m m' hn hs h1 h2 h
      simp only [addAttrs] at h
      by_cases hseen : a.name ∈ seen.map RawAttr.name
      · rw [if_pos hseen] at h
        exact ih seen m m' (fun b hb => hn b (by rw [List.cons_append]; exact List.mem_cons_of_mem _ hb)) hs h1 h2 h
      · rw [if_neg hseen] at h
        have hn' : ∀ b ∈ l ++ (a :: seen), b.name ≠ "Crystal system" ∧ b.name ≠ "Bands" := by
          intro b hb
          refine hn b ?_
          simp only [List.cons_append, List.mem_append, List.mem_cons] at hb ⊢
          rcases hb with hb | hb | hb
          · exact .inr (.inl hb)
          · exact .inl hb
          · exact .inr (.inr hb)
        have hfresh : ∀ p ∈ m.properties ++ m.conditions, p.1 ≠ goesTo a := by
          intro p hp e
          obtain ⟨b, hb, hg⟩ := hs p hp
          have := back b a (hn b (by simp [hb])) (hn a (by simp)) (hg.trans e)
          exact hseen (List.mem_map.2 ⟨b, hb, this⟩)
        have hs' : ∀ p ∈ m.properties ++ m.conditions, ∃ b ∈ a :: seen, goesTo b = p.1 := fun p hp => by
          obtain ⟨b, hb, hg⟩ := hs p hp
          exact ⟨b, List.mem_cons_of_mem _ hb, hg⟩
        have add : ∀ (q : List (String × Cell)) (c : Cell), (q.map Prod.fst).Nodup → (∀ p ∈ q, p.1 ≠ goesTo a) → ((q ++ [(goesTo a, c)]).map Prod.fst).Nodup := by
          intro q c hq hd
          rw [List.map_append]
          refine List.nodup_append.2 ⟨hq, by simp, fun x hx y hy => ?_⟩
          obtain ⟨p, hp, rfl⟩ := List.mem_map.1 hx
          simp only [List.map_cons, List.map_nil, List.mem_singleton] at hy
          rw [hy]
          exact hd p hp
        cases hr : routed templates nameMap a with
        | error e => rw [hr] at h; cases h
        | ok p =>
          obtain ⟨n, t⟩ := p
          obtain ⟨rfl, ht⟩ := routed_spec hr
          rw [hr] at h
          cases t with
          | property b =>
            simp only at h
            cases hc : content b a with
            | error e => rw [hc] at h; cases h
            | ok c =>
              rw [hc] at h
              refine ih (a :: seen) { m with properties := m.properties ++ [(goesTo a, c)] } m' hn' (fun p hp => ?_) (add _ c h1 (fun p hp => hfresh p (by simp [hp]))) h2 h
              simp only [List.append_assoc, List.mem_append, List.mem_cons, List.not_mem_nil, or_false] at hp
              rcases hp with hp | hp | hp
              · exact hs' p (by simp [hp])
              · rw [hp]; exact ⟨a, List.mem_cons_self .., rfl⟩
              · exact hs' p (by simp [hp])
          | condition b =>
            simp only at h
            cases hc : content b a with
            | error e => rw [hc] at h; cases h
            | ok c =>
              rw [hc] at h
              refine ih (a :: seen) { m with conditions := m.conditions ++ [(goesTo a, c)] } m' hn' (fun p hp => ?_) h1 (add _ c h2 (fun p hp => hfresh p (by simp [hp]))) h
              simp only [List.mem_append, List.mem_cons, List.not_mem_nil, or_false] at hp
              rcases hp with hp | hp | hp
              · exact hs' p (by simp [hp])
              · exact hs' p (by simp [hp])
              · rw [hp]; exact ⟨a, List.mem_cons_self .., rfl⟩
          | object =>
            simp only at h
            exact ih (a :: seen) m m' hn' hs' h1 h2 h
  exact key l [] ⟨[], []⟩ m (by simpa using hl) (by simp) (by simp) (by simp) h

/-- C76: otherwise it may: a crystal system reported as a phase, and one reported as such -/
theorem C76_once_counterexample : ∃ m, addAttrs templates nameMap [] ⟨[], []⟩ [⟨"Phase", "Cubic", .error .keyError⟩, ⟨"Crystal system", "Cubic", .error .keyError⟩] = .ok m ∧
    m.conditions.map Prod.fst = ["Crystal system", "Crystal system"] := ⟨_, rfl, rfl⟩

/-! ## An example -/

/-- lithium fluoride, the first row of the data -/
def lif : Row := ⟨"Li1F1".toList, [⟨⟨"Crystallinity", "Single crystalline", .error .keyError⟩, []⟩,
  ⟨⟨"Band gap", "13.6", .ok (.nominal (136 / 10) "eV")⟩, [⟨"Transition", "Direct", .error .keyError⟩, ⟨"Temperature", "300", .ok (.nominal 300 "K")⟩]⟩]⟩

example : ((makeObjects Markup.ascii [['L', 'i'], ['F']] [lif, lif]).bind (makeTable id)).map Prod.snd = .ok (List.replicate 2
    ([.text "LiF", .formula "LiF", .nominal (136 / 10) "eV", .absent, .nominal 300 "K"] ++ List.replicate 7 .absent ++ [.category "Direct", .absent, .absent,
      .category "Single crystalline", .absent, .absent, .absent])) := by decide +kernel

example : (makeObjects Markup.ascii [['L', 'i'], ['F']] [lif, lif]).map (fun o => (o.specs.length, o.runs.length)) = .ok (1, 2) := by decide +kernel

example : ∀ a ∈ lif.attrs, Mapped a := by
  intro a ha
  simp only [lif, Row.attrs, List.flatMap_cons, List.flatMap_nil, List.append_nil, List.cons_append, List.nil_append, List.mem_cons, List.not_mem_nil, or_false] at ha
  rcases ha with rfl | rfl | rfl | rfl <;> intro c hc <;> cases hc <;> exact .inl ⟨_, _, rfl⟩

end Verif.Strehlow
