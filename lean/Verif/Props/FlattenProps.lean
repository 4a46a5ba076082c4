import Verif.Props.Flatten
/-!
# C39 and C40: `flatten`
-/

set_option linter.unusedSimpArgs false
set_option linter.unusedVariables false
set_option linter.unusedSectionVars false

namespace Verif.Substitute
open Verif.Py Verif.Value Verif.Schema Verif.Json Verif.Traverse

/-! ## The specification -/

/-- entities in reach that share an id have the same ids -/
def OneEach (m : Mem) (root : V) : Prop := ∀ o x p y, m[o]? = some x → Reachable m false root (.ref o) → m[p]? = some y →
  Reachable m false root (.ref p) → ∀ u ∈ x.uids, u ∈ y.uids → x.uids.Perm y.uids

/-- `l` is the flat version of what is in reach of `root`. The new entities `ys` are in it, each once. They are stripped copies of the entities `os` in reach, each
once, in the order in which these were found: same class, same uids, every entity in an attribute replaced by a link that it equals, everything else equal, no entity
left at any depth. No two of them share an id. Every entity in reach is copied, or shares an id with another one; and if those sharing an id have the same ids, there
is exactly one copy with these. The input is still there: it is the beginning of the new memory. -/
structure Flattened (lower : String → String) (m : Mem) (root : V) (l : List V) (m' : Mem) (os : List Nat) (ys : List EObj) : Prop where
  mem : m' = m ++ ys
  list : l.Perm ((List.range' m.length ys.length).map .ref)
  len : ys.length = os.length
  nodup : os.Nodup
  reach : ∀ o ∈ os, o < m.length ∧ Reachable m false root (.ref o)
  copied : ∀ i (h1 : i < os.length) (h2 : i < ys.length), ∃ x, m[os[i]]? = some x ∧ Copied lower m x m' ys[i]
  apart : ∀ i j (hi : i < ys.length) (hj : j < ys.length), i ≠ j → ∀ u ∈ ys[i].uids, u ∉ ys[j].uids
  every : ∀ o x, m[o]? = some x → Reachable m false root (.ref o) → o ∈ os ∨
    ∃ p y, p ≠ o ∧ m[p]? = some y ∧ Reachable m false root (.ref p) ∧ ∃ u ∈ x.uids, u ∈ y.uids
  one : OneEach m root → ∀ o x, m[o]? = some x → Reachable m false root (.ref o) →
    ∃ i, ∃ h : i < ys.length, ys[i].uids.Perm x.uids ∧ ∀ j (h : j < ys.length), ys[j].uids.Perm x.uids → j = i

/-! ## C39 -/

theorem flattened {env : Env} {m : Mem} {root : V} (h : Flattenable env m root) (hu : Identified m root) :
    ∃ n os ys, ∃ l, (∀ n' ≥ n, flattenSet env n' m root = some (.ok (l, m ++ ys))) ∧ l = sortBy (orderOf (m ++ ys)) ((List.range' m.length ys.length).map .ref) ∧
      Flattened env.lower m root l (m ++ ys) os ys ∧ WellTyped env (m ++ ys) := by
  obtain ⟨n, order, ys, c1, c2, c3, c4, c5, c6⟩ := flatten_core h hu
  have hsub := kept_sublist m [] order
  have hin : ∀ o ∈ kept m [] order, o < m.length ∧ Reachable m false root (.ref o) := fun o ho => (c2 o).1 (hsub.subset ho)
  have huids : ∀ i (h1 : i < (kept m [] order).length) (h2 : i < ys.length), ys[i].uids.Perm (uidsAt m (kept m [] order)[i]) := by
    intro i h1 h2
    obtain ⟨x, hx, hc⟩ := c6 i h1 h2
    rw [uidsAt_some hx]
    exact hc.uids.2
  have hapart : ∀ i j (hi : i < ys.length) (hj : j < ys.length), i ≠ j → ∀ u ∈ ys[i].uids, u ∉ ys[j].uids := by
    have hp := kept_pairwise m [] order
    have lt : ∀ i j (hi : i < ys.length) (hj : j < ys.length), i < j → ∀ u ∈ ys[i].uids, u ∉ ys[j].uids := by
      intro i j hi hj hlt u hui huj
      have := (List.pairwise_iff_getElem.1 hp) i j (by omega) (by omega) hlt u ((huids i (by omega) hi).mem_iff.1 hui)
      exact this ((huids j (by omega) hj).mem_iff.1 huj)
    intro i j hi hj hne u hui huj
    rcases Nat.lt_or_gt_of_ne hne with hlt | hlt
    · exact lt i j hi hj hlt u hui huj
    · exact lt j i hj hi hlt u huj hui
  refine ⟨n, kept m [] order, ys, _, c4, rfl, ⟨rfl, sortBy_perm _ _, c3, hsub.nodup c1, hin, ?_, hapart, ?_, ?_⟩, c5⟩
  · intro i h1 h2
    obtain ⟨x, hx, hc⟩ := c6 i h1 h2
    refine ⟨x, hx, ?_⟩
    have hr := hin _ (List.getElem_mem h1)
    obtain ⟨vals, own, hs, _⟩ := h.typed _ _ hx
    have hd := asDict_append hs ys
    have hlk := h.links hu hx hr.2
    have key := hc.copied (Grows.refl (m ++ ys)) (by rw [hd]; exact h.plain _ x hx hr.2) (by
      rw [hd]
      intro e he p hp
      obtain ⟨s, i, e2, y, hy, e3⟩ := hlk e he p hp
      exact ⟨s, i, e2, y, get_append hy _, e3⟩)
    obtain ⟨k1, k2, k3, k4, k5⟩ := key
    rw [hd] at k3 k4
    refine ⟨k1, k2, k3, ?_, k5⟩
    refine alikes_mono _ _ ?_ (fun s i w _ h => h) k4
    intro p w hp hw
    obtain ⟨s, i, e2, y, hy, e3⟩ := hw
    rw [mem_subss] at hp
    obtain ⟨v, hv, hp⟩ := hp
    obtain ⟨e, he, rfl⟩ := List.mem_map.1 hv
    obtain ⟨_, y', hy', _⟩ := (h.ready hu hx hr.2).refs e he p hp
    rw [get_append hy' ys] at hy
    cases hy
    exact ⟨s, i, e2, _, hy', e3⟩
  · intro o x hx hr
    have ho : o ∈ order := (c2 o).2 ⟨(List.getElem?_eq_some_iff.1 hx).1, hr⟩
    rcases kept_or (m := m) (known := []) ho with h' | ⟨u, hu', h' | ⟨p, hp, hpu⟩⟩
    · exact .inl h'
    · simp at h'
    · right
      have hpm : p ∈ order := hp.subset (by simp)
      obtain ⟨hlt, hrp⟩ := (c2 p).1 hpm
      have hne : p ≠ o := by
        rintro rfl
        have := hp.nodup c1
        simp at this
      refine ⟨p, m[p], hne, List.getElem?_eq_getElem hlt, hrp, u, ?_, ?_⟩
      · rw [← uidsAt_some hx]; exact hu'
      · rw [← uidsAt_some (List.getElem?_eq_getElem hlt)]; exact hpu
  · intro hone o x hx hr
    have ho : o ∈ order := (c2 o).2 ⟨(List.getElem?_eq_some_iff.1 hx).1, hr⟩
    have hget : ∀ a ∈ order, ∃ x, m[a]? = some x ∧ Reachable m false root (.ref a) := by
      intro a ha
      obtain ⟨hlt, hr⟩ := (c2 a).1 ha
      exact ⟨m[a], List.getElem?_eq_getElem hlt, hr⟩
    obtain ⟨p, hp, hpo⟩ := kept_all (m := m) (known := []) (os := order) (fun a ha => by
        obtain ⟨y, hy, hra⟩ := hget a ha
        rw [uidsAt_some hy]; exact hu a y hy hra) (fun a ha b hb u => by
        obtain ⟨y, hy, hra⟩ := hget a ha
        obtain ⟨z, hz, hrb⟩ := hget b hb
        rw [uidsAt_some hy, uidsAt_some hz]
        exact hone a y b z hy hra hz hrb u) (by simp) ho
    rw [uidsAt_some hx] at hpo
    obtain ⟨i, hi, rfl⟩ := List.getElem_of_mem hp
    have hi' : i < ys.length := by omega
    refine ⟨i, hi', (huids i hi hi').trans hpo, ?_⟩
    intro j hj hjx
    apply Classical.byContradiction
    intro hne
    obtain ⟨u, us, e⟩ : ∃ u us, x.uids = u :: us := by
      cases e : x.uids with
      | nil => exact absurd e (hu o x hx hr)
      | cons u us => exact ⟨u, us, rfl⟩
    have hux : u ∈ x.uids := by simp [e]
    exact hapart j i hj hi' hne u (hjx.mem_iff.2 hux) (((huids i hi hi').trans hpo).mem_iff.2 hux)

/-- C39: `flatten(root)` of a graph of entities that have ids. Missing for the full statement: tuples, entities in free attributes such as `notes`. -/
theorem C39_flatten_partial (env : Env) (m : Mem) (root : V) (gen : Nat → String) (drawn : Nat) (h : Flattenable env m root) (hu : Identified m root) :
    ∃ n l m' os ys, (∀ n' ≥ n, flatten env none gen n' m drawn root = some (.ok (l, m'))) ∧ Flattened env.lower m root l m' os ys := by
  obtain ⟨n, os, ys, l, h1, _, h2, _⟩ := flattened h hu
  exact ⟨n, l, m ++ ys, os, ys, h1, h2⟩

/-- C39: an entity in reach without id is refused, if no scope is given: ValueError. -/
theorem C39_no_id (env : Env) (m : Mem) (root : V) (gen : Nat → String) (drawn : Nat) (flat : NoListInTuple m false root) (o : Nat) (x : EObj) (hx : m[o]? = some x)
    (hr : Reachable m false root (.ref o)) (hu : x.uids = []) :
    ∃ n, ∀ n' ≥ n, flatten env none gen n' m drawn root = some (.error .valueError) := by
  obtain ⟨n, order, h1, h2, h3⟩ := C37_collects_all_once_partial m ([] : List (String × String)) root false keepNew (fun _ _ _ _ h => keepNew_same h) flat
  obtain ⟨os, rfl⟩ := refs_of (fun x hx => ((h2 x).1 hx).1)
  have hin : ∀ a ∈ os, a < m.length := by
    intro a ha
    obtain ⟨⟨o', hlt, e⟩, _⟩ := (h2 (.ref a)).1 (List.mem_map_of_mem ha)
    cases e
    exact hlt
  have ho : o ∈ os := by
    obtain ⟨o', ho', e⟩ := List.mem_map.1 ((h2 (.ref o)).2 ⟨⟨o, (List.getElem?_eq_some_iff.1 hx).1, rfl⟩, hr⟩)
    cases e
    exact ho'
  refine ⟨n, fun n' hn' => ?_⟩
  simp only [flatten, flattenSet, distinct, h3 n' hn']
  rw [keep_error m os o ho (fun a ha => ⟨m[a]'(hin a ha), List.getElem?_eq_getElem (hin a ha)⟩) (by rw [uidsAt_some hx]; exact hu)]

/-! ## With a scope -/

/-- `m1` is `m`, where entities in reach that had no id have one under `scope` -/
structure Numbered (scope : String) (m m1 : Mem) (root : V) : Prop where
  same : SameGraph m m1
  uids : ∀ o x, m[o]? = some x → ∃ y, m1[o]? = some y ∧
    (y.uids = x.uids ∨ x.uids = [] ∧ Reachable m false root (.ref o) ∧ ∃ g, y.uids = [(scope, g)])
  all : Identified m1 root

theorem getattr_same {m m1 : Mem} (h : SameGraph m m1) {x y : EObj} (hc : y.cls = x.cls) (hf : y.fields = x.fields)
    (f : String × V) : getattr m1 y f = getattr m x f := by
  unfold Schema.getattr
  rw [hc, hf]
  split
  · cases hg : Dict.get? x.fields "_spec" with
    | none => rfl
    | some v =>
      cases v with
      | ref p =>
        have := sameGraph_get h p
        cases h1 : m1[p]? <;> cases h2 : m[p]? <;> rw [h1, h2] at this <;> simp at this
        · simp [h1, h2]
        · simp [h1, h2, this.1, this.2]
      | _ => rfl
  · rfl


theorem same_back {m m1 : Mem} (h : SameGraph m m1) {o : Nat} {y : EObj} (hy : m1[o]? = some y) : ∃ x, m[o]? = some x ∧ y.cls = x.cls ∧ y.fields = x.fields := by
  have := sameGraph_get h o
  rw [hy] at this
  cases hx : m[o]? with
  | none => rw [hx] at this; simp at this
  | some x =>
    rw [hx] at this
    simp at this
    exact ⟨x, rfl, this.1, this.2⟩

theorem same_grows {m m1 : Mem} (h : SameGraph m m1) : Grows m m1 := by
  intro o x hx
  have := sameGraph_get h o
  rw [hx] at this
  cases hy : m1[o]? with
  | none => rw [hy] at this; simp at this
  | some y =>
    rw [hy] at this
    simp at this
    refine ⟨y, rfl, this.1, ?_⟩
    rw [this.2]
    exact fun _ h => h

theorem asDict_same {m m1 : Mem} (h : SameGraph m m1) {x y : EObj} (hc : y.cls = x.cls) (hf : y.fields = x.fields) :
    ∃ t : List (String × V), asDict m1 y = ("type", .str (Equal.typ x.cls)) :: ("uids", uidsDict y.uids) :: t ∧
      asDict m x = ("type", .str (Equal.typ x.cls)) :: ("uids", uidsDict x.uids) :: t := by
  refine ⟨_, ?_, rfl⟩
  unfold asDict
  rw [hc, hf]
  congr 2
  apply List.map_congr_left
  intro f _
  rw [getattr_same h hc hf]

theorem uidsDict_subs {us : List (String × String)} {w : V} (h : w ∈ (uidsDict us).subs) : w = uidsDict us ∨ ∃ s, w = .str s := by
  simp only [uidsDict, V.subs, List.mem_cons, List.mem_append, mem_subss] at h
  rcases h with h | ⟨v, hv, h⟩ | ⟨v, hv, h⟩
  · exact .inl h
  all_goals
    obtain ⟨u, _, rfl⟩ := List.mem_map.1 hv
    simp [V.subs] at h
    exact .inr ⟨_, h⟩

theorem Numbered.flattenable {env : Env} {scope : String} {m m1 : Mem} {part root : V} (hn : Numbered scope m m1 part) (hsc : scope ≠ "type")
    (h : Flattenable env m root) : Flattenable env m1 root := by
  have back : ∀ o y, m1[o]? = some y → ∃ x, m[o]? = some x ∧ y.cls = x.cls ∧ y.fields = x.fields ∧
      (y.uids = x.uids ∨ x.uids = [] ∧ Reachable m false part (.ref o) ∧ ∃ g, y.uids = [(scope, g)]) := by
    intro o y hy
    obtain ⟨x, hx, h1, h2⟩ := same_back hn.same hy
    obtain ⟨y', hy', h3⟩ := hn.uids o x hx
    rw [hy] at hy'
    cases hy'
    exact ⟨x, hx, h1, h2, h3⟩
  refine ⟨?_, fun l hl => h.flat l ((reachable_congr hn.same).1 hl), ?_, ?_⟩
  · intro o y hy
    obtain ⟨x, hx, h1, h2, h3⟩ := back o y hy
    obtain ⟨vals, own, hs, hown⟩ := h.typed o x hx
    have hs' := hs.grows (same_grows hn.same)
    refine ⟨vals, own, ⟨by rw [h1]; exact hs'.len, by rw [h1, h2]; exact hs'.fields, by rw [h1]; exact hs'.own, by rw [h1]; exact hs'.conv, hs'.ok, ?_⟩,
      by rw [h1]; exact hown⟩
    rcases h3 with h3 | ⟨_, _, g, h3⟩
    · rw [h3]; exact hs'.uids
    · rw [h3]; simp [clash]
  · intro o y hy hr e he
    obtain ⟨x, hx, h1, h2, h3⟩ := back o y hy
    obtain ⟨t, e1, e2⟩ := asDict_same hn.same h1 h2
    have hp := h.plain o x hx ((reachable_congr hn.same).1 hr)
    rw [e2] at hp
    rw [e1] at he
    simp only [List.mem_cons] at he
    rcases he with rfl | rfl | he
    · exact hp _ (by simp)
    · rcases h3 with h3 | ⟨_, _, g, h3⟩
      · rw [h3]; exact hp ("uids", uidsDict x.uids) (by simp)
      · rw [h3]
        refine ⟨?_, by simp [uidsDict, noTuple, noTuples]⟩
        simp only [uidsDict, List.map_cons, List.map_nil, wf, wfs, and_true, List.length_cons, List.length_nil, true_and]
        exact ⟨rfl, [scope], rfl, by simp, by simpa using Ne.symm hsc⟩
    · exact hp e (by simp [he])
  · intro o y hy hr
    obtain ⟨x, hx, h1, h2, h3⟩ := back o y hy
    obtain ⟨t, e1, e2⟩ := asDict_same hn.same h1 h2
    obtain ⟨hp, hq⟩ := h.free o x hx ((reachable_congr hn.same).1 hr)
    rw [e2] at hp hq
    rw [e1]
    constructor
    · intro f hf hfr p hpm
      simp only [List.mem_cons] at hf
      rcases hf with rfl | rfl | hf
      · simp [V.subs] at hpm
      · rcases uidsDict_subs hpm with h | ⟨_, h⟩ <;> cases h
      · exact hp f (by simp [hf]) hfr p hpm
    · intro e he
      simp only [List.mem_cons] at he
      rcases he with rfl | rfl | he
      · exact hq _ (by simp)
      · intro t ns vs hm
        rcases uidsDict_subs hm with h | ⟨_, h⟩ <;> cases h
      · exact hq e (by simp [he])

theorem numbered {m : Mem} {root : V} (scope : String) (gen : Nat → String) (c : Nat) (flat : NoListInTuple m false root) :
    ∃ n m1 c1, (∀ n' ≥ n, setUuids scope gen n' m c root = some (.ok (m1, c1))) ∧ Numbered scope m m1 root := by
  obtain ⟨n, m1, c1, draw, h1, h2, h3, h4, h5, _⟩ := C38_set_uuids_partial scope gen m c root flat
  have key : ∀ o x, m[o]? = some x → ∃ y, m1[o]? = some y ∧ y.cls = x.cls ∧ y.fields = x.fields ∧ (y.uids = x.uids ∨ x.uids = [] ∧ Reachable m false root (.ref o) ∧ ∃ g, y.uids = [(scope, g)]) ∧
      (Reachable m false root (.ref o) → y.uids ≠ []) := by
    intro o x hx
    by_cases hr : Reachable m false root (.ref o)
    · by_cases hu : x.uids = []
      · exact ⟨_, (h3 o x hx hr hu).2.2, rfl, rfl, .inr ⟨hu, hr, _, rfl⟩, by simp⟩
      · exact ⟨x, h4 o x hx (.inr hu), rfl, rfl, .inl rfl, fun _ => hu⟩
    · exact ⟨x, h4 o x hx (.inl hr), rfl, rfl, .inl rfl, fun h => absurd h hr⟩
  have hsame : SameGraph m m1 := by
    unfold SameGraph
    apply List.ext_getElem?
    intro o
    rw [List.getElem?_map, List.getElem?_map]
    cases hx : m[o]? with
    | none =>
      have : m1[o]? = none := by
        rw [List.getElem?_eq_none_iff] at hx ⊢
        omega
      rw [this]
    | some x =>
      obtain ⟨y, hy, a, b, _⟩ := key o x hx
      rw [hy]
      simp [a, b]
  refine ⟨n, m1, c1, h1, hsame, ?_, ?_⟩
  · intro o x hx
    obtain ⟨y, hy, _, _, h, _⟩ := key o x hx
    exact ⟨y, hy, h⟩
  · intro o y hy hr
    obtain ⟨x, hx, _⟩ := same_back hsame hy
    obtain ⟨y', hy', _, _, _, h⟩ := key o x hx
    rw [hy] at hy'
    cases hy'
    exact h ((reachable_congr hsame).1 hr)

theorem flattened_scope {env : Env} {m : Mem} {root : V} (scope : String) (gen : Nat → String) (drawn : Nat) (h : Flattenable env m root) (hsc : scope ≠ "type") :
    ∃ n m1 c1, (∀ n' ≥ n, setUuids scope gen n' m drawn root = some (.ok (m1, c1))) ∧ Numbered scope m m1 root ∧ Flattenable env m1 root ∧
      ∀ n' ≥ n, flatten env (some scope) gen n' m drawn root = flattenSet env n' m1 root := by
  obtain ⟨n, m1, c1, h1, h2⟩ := numbered scope gen drawn h.flat
  refine ⟨n, m1, c1, h1, h2, h2.flattenable hsc h, ?_⟩
  intro n' hn'
  simp only [flatten, h1 n' hn']

/-- C39: `flatten(root, scope)`: the same, once entities in reach without an id have been given one under `scope`; nothing else in the graph changes. -/
theorem C39_flatten_scope_partial (env : Env) (m : Mem) (root : V) (scope : String) (gen : Nat → String) (drawn : Nat) (h : Flattenable env m root)
    (hsc : scope ≠ "type") :
    ∃ n m1 l m' os ys, Numbered scope m m1 root ∧ (∀ n' ≥ n, flatten env (some scope) gen n' m drawn root = some (.ok (l, m'))) ∧
      Flattened env.lower m1 root l m' os ys := by
  obtain ⟨n, m1, c1, _, h2, h3, h4⟩ := flattened_scope scope gen drawn h hsc
  obtain ⟨n2, os, ys, l, e1, _, e2, _⟩ := flattened h3 h2.all
  refine ⟨max n n2, m1, l, _, os, ys, h2, ?_, e2⟩
  intro n' hn'
  rw [h4 n' (by omega), e1 n' (by omega)]

/-! ## C40 -/

/-- the classes of the entities that the attributes of an entity can hold, according to the data model -/
def mayPoint : ECls → List ECls
  | .propertyTemplate => []
  | .conditionTemplate => []
  | .parameterTemplate => []
  | .materialTemplate => [.propertyTemplate]
  | .processTemplate => [.conditionTemplate, .parameterTemplate]
  | .measurementTemplate => [.propertyTemplate, .conditionTemplate, .parameterTemplate]
  | .processSpec => [.processTemplate, .conditionTemplate, .parameterTemplate]
  | .measurementSpec => [.measurementTemplate, .conditionTemplate, .parameterTemplate]
  | .materialSpec => [.materialTemplate, .processSpec, .propertyTemplate, .conditionTemplate]
  | .ingredientSpec => [.materialSpec, .processSpec]
  | .processRun => [.processSpec, .conditionTemplate, .parameterTemplate]
  | .materialRun => [.materialSpec, .processRun]
  | .measurementRun => [.measurementSpec, .materialRun, .propertyTemplate, .conditionTemplate, .parameterTemplate]
  | .ingredientRun => [.ingredientSpec, .materialRun, .processRun]

theorem mayPoint_order (c : ECls) : ∀ d ∈ mayPoint c, sortOrder d < sortOrder c := by cases c <;> decide +kernel

/-- an entity in reach that a link in an attribute of another one means, has a class that this attribute can hold -/
def LinksTyped (lower : String → String) (m : Mem) (root : V) : Prop := ∀ o x, m[o]? = some x → Reachable m false root (.ref o) → ∀ e ∈ asDict m x,
  ∀ s i, V.link s i ∈ e.2.subs → ∀ p y, m[p]? = some y → Reachable m false root (.ref p) → Carries lower m p (lower s) i → y.cls ∈ mayPoint x.cls

/-- entities in reach that a link cannot tell apart have the same class -/
def ClassById (lower : String → String) (m : Mem) (root : V) : Prop := ∀ o x p y s i, m[o]? = some x → Reachable m false root (.ref o) → m[p]? = some y →
  Reachable m false root (.ref p) → Carries lower m o s i → Carries lower m p s i → x.cls = y.cls

mutual
theorem alike_link {L : Nat → V → Prop} {G : String → String → V → Prop} (v w : V) (h : alike L G v w) (s i : String) (hm : V.link s i ∈ w.subs)
    (hG : ∀ s i w, G s i w → w = .link s i) (hL : ∀ o w, L o w → ∃ s i, w = .link s i) :
    (∃ o, V.ref o ∈ v.subs ∧ L o (.link s i)) ∨ V.link s i ∈ v.subs := by
  cases v with
  | list l =>
    obtain ⟨l', rfl, h⟩ := h
    simp only [V.subs, List.mem_cons, reduceCtorEq, false_or] at hm ⊢
    exact alikes_link l l' h s i hm hG hL
  | tuple l =>
    obtain ⟨l', rfl, h⟩ := h
    simp only [V.subs, List.mem_cons, reduceCtorEq, false_or] at hm ⊢
    exact alikes_link l l' h s i hm hG hL
  | dict ks vs =>
    obtain ⟨ks', vs', ps, rfl, hl, hp, h1, h⟩ := h
    simp only [V.subs, List.mem_cons, reduceCtorEq, false_or, List.mem_append] at hm ⊢
    have hk : ks.Perm ks' := by
      rw [← h1]
      have := hp.map Prod.fst
      rwa [List.map_fst_zip (by omega)] at this
    have hv : (ps.map Prod.snd).Perm vs' := by
      have := hp.map Prod.snd
      rwa [List.map_snd_zip (by omega)] at this
    rcases hm with hm | hm
    · right; left
      rw [mem_subss] at hm ⊢
      obtain ⟨u, hu, hm⟩ := hm
      exact ⟨u, hk.mem_iff.2 hu, hm⟩
    · have hm' : V.link s i ∈ subss (ps.map Prod.snd) := by
        rw [mem_subss] at hm ⊢
        obtain ⟨u, hu, hm⟩ := hm
        exact ⟨u, hv.mem_iff.2 hu, hm⟩
      rcases alikes_link vs _ h s i hm' hG hL with ⟨o, ho, h⟩ | h
      · exact .inl ⟨o, .inr ho, h⟩
      · exact .inr (.inr h)
  | obj t ns vs =>
    obtain ⟨l', rfl, h⟩ := h
    simp only [V.subs, List.mem_cons, reduceCtorEq, false_or] at hm ⊢
    exact alikes_link vs l' h s i hm hG hL
  | link a b =>
    have := hG _ _ _ h
    subst this
    exact .inr hm
  | ref o =>
    simp only [alike] at h
    obtain ⟨a, b, rfl⟩ := hL o w h
    simp only [V.subs, List.mem_cons, List.not_mem_nil, or_false, V.link.injEq, reduceCtorEq] at hm
    obtain ⟨rfl, rfl⟩ := hm
    exact .inl ⟨o, self_mem_subs _, h⟩
  | none => simp only [alike] at h; subst h; simp [V.subs] at hm
  | str t => simp only [alike] at h; subst h; simp [V.subs] at hm
  | bool b => simp only [alike] at h; cases w <;> simp [num] at h <;> simp [V.subs] at hm
  | int b => simp only [alike] at h; cases w <;> simp [num] at h <;> simp [V.subs] at hm
  | float b => simp only [alike] at h; cases w <;> simp [num] at h <;> simp [V.subs] at hm
termination_by structural v
theorem alikes_link {L : Nat → V → Prop} {G : String → String → V → Prop} (l l' : List V) (h : alikes L G l l') (s i : String) (hm : V.link s i ∈ subss l')
    (hG : ∀ s i w, G s i w → w = .link s i) (hL : ∀ o w, L o w → ∃ s i, w = .link s i) :
    (∃ o, V.ref o ∈ subss l ∧ L o (.link s i)) ∨ V.link s i ∈ subss l := by
  cases l with
  | nil => simp only [alikes] at h; subst h; simp [subss] at hm
  | cons v vs =>
    obtain ⟨w, ws, rfl, h1, h2⟩ := h
    simp only [subss, List.mem_append] at hm ⊢
    rcases hm with hm | hm
    · rcases alike_link v w h1 s i hm hG hL with ⟨o, ho, h⟩ | h
      · exact .inl ⟨o, .inl ho, h⟩
      · exact .inr (.inl h)
    · rcases alikes_link vs ws h2 s i hm hG hL with ⟨o, ho, h⟩ | h
      · exact .inl ⟨o, .inr ho, h⟩
      · exact .inr (.inr h)
termination_by structural l
end

/-- a link in a stripped copy means an entity of lower order -/
theorem copied_order {env : Env} {m : Mem} {root : V} (h : Flattenable env m root) (hc : ClassById env.lower m root) (hl : LinksTyped env.lower m root)
    {o : Nat} {x : EObj} (hx : m[o]? = some x) (hr : Reachable m false root (.ref o)) {m' : Mem} {y : EObj} (hy : Copied env.lower m x m' y)
    {e : String × V} (he : e ∈ asDict m' y) {s i : String} (hm : V.link s i ∈ e.2.subs) {p : Nat} {z : EObj} (hz : m[p]? = some z)
    (hrp : Reachable m false root (.ref p)) (hcar : Carries env.lower m p (env.lower s) i) : sortOrder z.cls < sortOrder x.cls := by
  obtain ⟨_, _, _, h4, _⟩ := hy
  have hm' : V.link s i ∈ subss ((asDict m' y).map Prod.snd) := by
    rw [mem_subss]
    exact ⟨e.2, List.mem_map_of_mem he, hm⟩
  rcases alikes_link _ _ h4 s i hm' (fun s i w h => h) (fun o w h => by obtain ⟨s, i, h, _⟩ := h; exact ⟨s, i, h⟩) with ⟨q, hq, s', i', h5, h6⟩ | h5
  · cases h5
    rw [mem_subss] at hq
    obtain ⟨v, hv, hq⟩ := hq
    obtain ⟨f, hf, rfl⟩ := List.mem_map.1 hv
    obtain ⟨h7, h8⟩ := h.free o x hx hr
    obtain ⟨w, hw, hlt⟩ := forward_refs h.typed hx h7 h8 hf hq
    have hrq := reach_asDict h.typed hx hr hf (h.plain o x hx hr f hf).1 hq
    rw [hc p z q w _ _ hz hrp hw hrq hcar h6]
    exact hlt
  · rw [mem_subss] at h5
    obtain ⟨v, hv, hq⟩ := h5
    obtain ⟨f, hf, rfl⟩ := List.mem_map.1 hv
    exact mayPoint_order _ _ (hl o x hx hr f hf s i hq p z hz hrp hcar)

/-- In `l` an object comes after those that it links to, and objects of the same class are in the order in which they were created. -/
structure InOrder (lower : String → String) (l : List V) (m' : Mem) : Prop where
  after : ∀ a b (ha : a < l.length) (hb : b < l.length) q r y, l[a] = .ref q → l[b] = .ref r → m'[q]? = some y →
    ∀ e ∈ asDict m' y, ∀ s i, V.link s i ∈ e.2.subs → Carries lower m' r (lower s) i → b < a
  stable : ∀ a b (ha : a < l.length) (hb : b < l.length) q r y z, l[a] = .ref q → l[b] = .ref r → m'[q]? = some y → m'[r]? = some z →
    y.cls = z.cls → a < b → q < r

theorem range_sorted (a n : Nat) : ((List.range' a n).map V.ref).Pairwise (fun u v => ∃ p q, u = .ref p ∧ v = .ref q ∧ p < q) := by
  rw [List.pairwise_map]
  exact (List.pairwise_lt_range' (s := a) (n := n)).imp (fun h => ⟨_, _, rfl, rfl, h⟩)

theorem inOrder {env : Env} {m : Mem} {root : V} (h : Flattenable env m root) (hc : ClassById env.lower m root) (hl : LinksTyped env.lower m root)
    {os : List Nat} {ys : List EObj} {l : List V} (e : l = sortBy (orderOf (m ++ ys)) ((List.range' m.length ys.length).map .ref))
    (hF : Flattened env.lower m root l (m ++ ys) os ys) : InOrder env.lower l (m ++ ys) := by
  have hsort : l.Pairwise (fun a b => orderOf (m ++ ys) a ≤ orderOf (m ++ ys) b) := e ▸ sortBy_sorted _ _
  have hin : ∀ a (ha : a < l.length) q, l[a] = .ref q → ∃ i, ∃ hi : i < ys.length, q = m.length + i ∧ (m ++ ys)[q]? = some ys[i] := by
    intro a ha q hq
    have hm : V.ref q ∈ l := hq ▸ List.getElem_mem ha
    obtain ⟨q', hq', e'⟩ := List.mem_map.1 (hF.list.mem_iff.1 hm)
    cases e'
    obtain ⟨i, hi, rfl⟩ := List.mem_range'.1 hq'
    refine ⟨i, hi, by omega, ?_⟩
    rw [List.getElem?_append_right (by omega)]
    rw [show m.length + 1 * i - m.length = i by omega]
    exact List.getElem?_eq_getElem hi
  constructor
  · intro a b ha hb q r y hq hr hy f hf s i hm hcar
    obtain ⟨j, hj, rfl, hj'⟩ := hin a ha q hq
    obtain ⟨k, hk, rfl, hk'⟩ := hin b hb r hr
    rw [hj'] at hy
    cases hy
    obtain ⟨x, hx, hcx⟩ := hF.copied j (by rw [← hF.len]; exact hj) hj
    obtain ⟨z, hz, hcz⟩ := hF.copied k (by rw [← hF.len]; exact hk) hk
    have hrx := (hF.reach _ (List.getElem_mem (by rw [← hF.len]; exact hj : j < os.length))).2
    have hrz := (hF.reach _ (List.getElem_mem (by rw [← hF.len]; exact hk : k < os.length))).2
    have hcar' : Carries env.lower m (os[k]'(by rw [← hF.len]; exact hk)) (env.lower s) i := by
      obtain ⟨y, hy, sc, h1, h2⟩ := hcar
      rw [hk'] at hy
      cases hy
      exact ⟨z, hz, sc, hcz.2.1.mem_iff.1 h1, h2⟩
    have hlt := copied_order h hc hl hx hrx hcx hf hm hz hrz hcar'
    rw [← hcx.1, ← hcz.1] at hlt
    rcases Nat.lt_or_ge b a with hba | hab
    · exact hba
    · exfalso
      rcases Nat.lt_or_eq_of_le hab with hab | rfl
      · have := (List.pairwise_iff_getElem.1 hsort) a b ha hb hab
        rw [hq, hr] at this
        simp only [orderOf, hj', hk'] at this
        omega
      · rw [hq] at hr
        have hjk : j = k := by
          have := V.ref.inj hr
          omega
        subst hjk
        omega
  · intro a b ha hb q r y z hq hr hy hz hcls hab
    have hf := sortBy_filter (orderOf (m ++ ys)) (sortOrder z.cls) ((List.range' m.length ys.length).map .ref)
    rw [← e] at hf
    have hs : (l.filter (fun x => decide (orderOf (m ++ ys) x = sortOrder z.cls))).Pairwise (fun u v => ∃ p q, u = .ref p ∧ v = .ref q ∧ p < q) := by
      rw [hf]
      exact (range_sorted _ _).sublist List.filter_sublist
    rw [List.pairwise_filter] at hs
    have := (List.pairwise_iff_getElem.1 hs) a b ha hb hab
    rw [hq, hr] at this
    simp only [orderOf, hy, hz, hcls, decide_true, forall_const] at this
    obtain ⟨_, _, e1, e2, h⟩ := this
    cases e1
    cases e2
    exact h

/-- C40: the list that `flatten(root)` returns is in an order in which it can be written: an object comes after every object in the list that it links to; and
objects of the same class are in the order in which they were found. The links in the graph must be type-correct; an id must not be that of entities of
different classes. Missing for the full statement: tuples, entities in free attributes such as `notes`. -/
theorem C40_order_partial (env : Env) (m : Mem) (root : V) (gen : Nat → String) (drawn : Nat) (h : Flattenable env m root) (hu : Identified m root)
    (hc : ClassById env.lower m root) (hl : LinksTyped env.lower m root) :
    ∃ n l m', (∀ n' ≥ n, flatten env none gen n' m drawn root = some (.ok (l, m'))) ∧ (∃ os ys, Flattened env.lower m root l m' os ys) ∧ InOrder env.lower l m' := by
  obtain ⟨n, os, ys, l, h1, h2, h3, _⟩ := flattened h hu
  exact ⟨n, l, m ++ ys, h1, ⟨os, ys, h3⟩, inOrder h hc hl h2 h3⟩

/-! ## Examples -/

/-- no entity occurs in a value -/
def refFree (v : V) : Bool := v.subs.all fun w => match w with
  | .ref _ => false
  | _ => true

/-- `FreePlain`, decided -/
def freeOk (fs : List (String × V)) : Bool := fs.all fun f => decide (f.1 ∉ freeNames) || refFree f.2

/-- `FreeInside`, decided -/
def insideOk (v : V) : Bool := v.subs.all fun w => match w with
  | .obj _ ns vs => freeOk (ns.zip vs)
  | _ => true

theorem freeOk_spec {fs : List (String × V)} (h : freeOk fs = true) : FreePlain fs := by
  intro f hf hn p hp
  have := List.all_eq_true.1 h f hf
  simp only [Bool.or_eq_true, decide_eq_true_eq] at this
  rcases this with h | h
  · exact h hn
  · have := List.all_eq_true.1 h _ hp
    simp at this

theorem insideOk_spec {v : V} (h : insideOk v = true) : FreeInside v := by
  intro t ns vs hm
  have := List.all_eq_true.1 h _ hm
  exact freeOk_spec this

theorem noTuples_mem (l : List V) : noTuples l ↔ ∀ v ∈ l, noTuple v := by
  induction l with
  | nil => simp [noTuples]
  | cons v vs ih => simp [noTuples, ih]

/-- no tuples in the memory -/
theorem flat_of_noTuple {m : Mem} {uni : Bool} (hm : ∀ (o : Nat) (x : EObj), m[o]? = some x → ∀ f ∈ x.fields, tidy f.2 = true) {root : V} (hr : tidy root = true) :
    NoListInTuple m uni root := by
  have key : ∀ u w, Reachable m uni u w → wf u ∧ noTuple u → wf w ∧ noTuple w := by
    intro u w h
    induction h with
    | refl => exact id
    | step _ hc ih =>
      intro hu
      obtain ⟨h1, h2⟩ := ih hu
      cases hc with
      | list h => simp only [wf, noTuple] at h1 h2; exact ⟨(wfs_iff _).1 h1 _ h, (noTuples_mem _).1 h2 _ h⟩
      | tuple h => simp [noTuple] at h2
      | key h =>
        simp only [wf] at h1
        obtain ⟨⟨_, names, hs, _⟩, _⟩ := h1
        rw [strings_eq hs] at h
        obtain ⟨s, _, rfl⟩ := List.mem_map.1 h
        simp [wf, noTuple]
      | value h => simp only [wf, noTuple] at h1 h2; exact ⟨(wfs_iff _).1 h1.2 _ h, (noTuples_mem _).1 h2 _ h⟩
      | attr h => simp only [wf, noTuple] at h1 h2; exact ⟨(wfs_iff _).1 h1.2 _ (List.of_mem_zip h).2, (noTuples_mem _).1 h2 _ (List.of_mem_zip h).2⟩
      | scope => simp [wf, noTuple]
      | id => simp [wf, noTuple]
      | field h3 h4 _ => exact tidy_spec _ (hm _ _ h3 _ h4)
  intro l hl
  have := (key _ _ hl (tidy_spec _ hr)).2
  simp [noTuple] at this

/-- what `Flattenable` asks beside `WellTyped`, decided -/
def flattenOk (m : Mem) (root : V) : Bool := tidy root && m.all fun x => x.fields.all (fun f => tidy f.2) &&
  (freeOk (asDict m x) && (asDict m x).all fun e => tidy e.2 && insideOk e.2)

theorem flattenOk_spec {env : Env} {m : Mem} {root : V} (hT : WellTyped env m) (h : flattenOk m root = true) : Flattenable env m root := by
  simp only [flattenOk, Bool.and_eq_true] at h
  have key : ∀ (o : Nat) (x : EObj), m[o]? = some x → x.fields.all (fun f => tidy f.2) = true ∧ freeOk (asDict m x) = true ∧
      (asDict m x).all (fun e => tidy e.2 && insideOk e.2) = true := by
    intro o x hx
    have := List.all_eq_true.1 h.2 x (List.mem_of_getElem? hx)
    simp only [Bool.and_eq_true] at this
    exact this
  refine ⟨hT, flat_of_noTuple (fun o x hx f hf => List.all_eq_true.1 (key o x hx).1 f hf) h.1, ?_, ?_⟩
  · intro o x hx _ e he
    have := List.all_eq_true.1 (key o x hx).2.2 e he
    simp only [Bool.and_eq_true] at this
    exact tidy_spec _ this.1
  · intro o x hx _
    refine ⟨freeOk_spec (key o x hx).2.1, fun e he => ?_⟩
    have := List.all_eq_true.1 (key o x hx).2.2 e he
    simp only [Bool.and_eq_true] at this
    exact insideOk_spec this.2

/-- the sample, and a measurement of a material that is given by a link -/
def linkedCalls : List (ECls × List (String × V)) := [(.measurementRun, [("name", .str "v"), ("material", .link "id" "n"), idArg "v"])]

/-- what they make -/
def linkedSample : Mem := match callAll plainEnv sample linkedCalls with
  | .ok m => m
  | .error _ => []

theorem linkedSample_eq : callAll plainEnv sample linkedCalls = .ok linkedSample ∧ linkedSample.length = 9 := by decide +kernel

theorem linkedSample_built : Built plainEnv linkedSample := by
  refine built_callAll linkedCalls sample_built ?_ linkedSample_eq.1
  intro c hc e he m
  simp only [linkedCalls, List.mem_cons, List.not_mem_nil, or_false] at hc
  subst hc
  simp only [List.mem_cons, List.not_mem_nil, or_false] at he
  rcases he with rfl | rfl | rfl
  · exact ⟨Made.str _, by simp [strKeys]⟩
  · exact ⟨Made.link _ _, by simp [strKeys]⟩
  · refine ⟨Made.dict _ _ ?_, ?_⟩
    · intro v hv; simp at hv; subst hv; exact Made.str _
    · simp [idArg, strKeys, strings]

/-- everything in the memory -/
def linkedRoot : V := .list [.ref 1, .ref 6, .ref 7, .ref 8]

theorem linkedSample_flattenable : Flattenable plainEnv linkedSample linkedRoot :=
  flattenOk_spec (linkedSample_built.wellTyped plainEnv_sane) (by decide +kernel)

theorem linkedSample_identified : Identified linkedSample linkedRoot := by
  intro o x hx _
  have key : ∀ x ∈ linkedSample, x.uids ≠ [] := by decide +kernel
  exact key x (List.mem_of_getElem? hx)

theorem linkedSample_carries {o : Nat} {s i : String} (h : Carries plainEnv.lower linkedSample o s i) : ∃ x, linkedSample[o]? = some x ∧ x.uids = [("id", i)] := by
  obtain ⟨x, hx, sc, h1, _⟩ := h
  have key : ∀ x ∈ linkedSample, ∀ u ∈ x.uids, x.uids = [("id", u.2)] := by decide +kernel
  exact ⟨x, hx, key x (List.mem_of_getElem? hx) _ h1⟩

theorem linkedSample_ids {o p : Nat} {x y : EObj} (hx : linkedSample[o]? = some x) (hy : linkedSample[p]? = some y) (h : x.uids = y.uids) : o = p := by
  have key : (linkedSample.map EObj.uids).Nodup := by decide +kernel
  have h1 : (linkedSample.map EObj.uids)[o]? = some x.uids := by rw [List.getElem?_map, hx]; rfl
  have h2 : (linkedSample.map EObj.uids)[p]? = some x.uids := by rw [List.getElem?_map, hy, h]; rfl
  obtain ⟨l1, e1⟩ := List.getElem?_eq_some_iff.1 h1
  obtain ⟨l2, e2⟩ := List.getElem?_eq_some_iff.1 h2
  have hp := List.pairwise_iff_getElem.1 key
  rcases Nat.lt_trichotomy o p with hlt | rfl | hlt
  · exact absurd (e1.trans e2.symm) (hp o p l1 l2 hlt)
  · rfl
  · exact absurd (e2.trans e1.symm) (hp p o l2 l1 hlt)

/-- the hypotheses of `C39_flatten_partial`, `C39_flatten_scope_partial` and `C40_order_partial` are met, where a link occurs -/
example : Flattenable plainEnv linkedSample linkedRoot ∧ Identified linkedSample linkedRoot ∧ OneEach linkedSample linkedRoot ∧
    ClassById plainEnv.lower linkedSample linkedRoot ∧ LinksTyped plainEnv.lower linkedSample linkedRoot ∧
    Reachable linkedSample false linkedRoot (.ref 8) ∧ ∃ x, linkedSample[8]? = some x ∧ ("material", V.link "id" "n") ∈ asDict linkedSample x := by
  refine ⟨linkedSample_flattenable, linkedSample_identified, ?_, ?_, ?_, .step (.refl _) (.list (by simp)), ?_⟩
  · intro o x p y hx _ hy _ u hu hv
    have key : ∀ x ∈ linkedSample, ∀ u ∈ x.uids, x.uids = [("id", u.2)] := by decide +kernel
    rw [key x (List.mem_of_getElem? hx) u hu, key y (List.mem_of_getElem? hy) u hv]
  · intro o x p y s i hx _ hy _ h1 h2
    obtain ⟨x', hx', e1⟩ := linkedSample_carries h1
    obtain ⟨y', hy', e2⟩ := linkedSample_carries h2
    have := linkedSample_ids hx' hy' (e1.trans e2.symm)
    subst this
    rw [hx] at hy
    cases hy
    rfl
  · intro o x hx _ e he s i hm p y hy _ hc
    have key : ∀ x ∈ linkedSample, ∀ e ∈ asDict linkedSample x, ∀ w ∈ e.2.subs, (match w with
        | .link _ i => linkedSample.all fun y => decide (y.uids = [("id", i)] → y.cls ∈ mayPoint x.cls)
        | _ => true) = true := by decide +kernel
    have h1 := key x (List.mem_of_getElem? hx) e he _ hm
    obtain ⟨y', hy', e1⟩ := linkedSample_carries hc
    rw [hy] at hy'
    cases hy'
    have := List.all_eq_true.1 h1 y (List.mem_of_getElem? hy)
    simp only [decide_eq_true_eq] at this
    exact this e1
  · have : (linkedSample[8]?).any (fun x => decide (("material", V.link "id" "n") ∈ asDict linkedSample x)) = true := by decide +kernel
    rw [Option.any_eq_true] at this
    obtain ⟨x, hx, h⟩ := this
    exact ⟨x, hx, by simpa using h⟩

mutual
/-- a value without objects; dictionaries have strings as keys -/
def easy : V → Bool
  | .list l => easies l
  | .tuple l => easies l
  | .dict ks vs => (strings ks).isSome && easies vs
  | .obj _ _ _ => false
  | _ => true
def easies : List V → Bool
  | [] => true
  | v :: vs => easy v && easies vs
end

mutual
theorem easy_made {env : Env} {m : Mem} (v : V) (h : easy v = true) : Made env m v ∧ strKeys v := by
  cases v with
  | list l => exact ⟨.list _ (easies_made l h), by simp [strKeys]⟩
  | tuple l => exact ⟨.tuple _ (easies_made l h), by simp [strKeys]⟩
  | dict ks vs =>
    simp only [easy, Bool.and_eq_true] at h
    refine ⟨.dict _ _ (easies_made vs h.2), ?_⟩
    simp only [strKeys]
    intro e
    rw [e] at h
    simp at h
  | obj t ns vs => simp [easy] at h
  | none => exact ⟨.none, by simp [strKeys]⟩
  | bool b => exact ⟨.bool b, by simp [strKeys]⟩
  | int b => exact ⟨.int b, by simp [strKeys]⟩
  | float b => exact ⟨.float b, by simp [strKeys]⟩
  | str b => exact ⟨.str b, by simp [strKeys]⟩
  | link a b => exact ⟨.link a b, by simp [strKeys]⟩
  | ref b => exact ⟨.ref b, by simp [strKeys]⟩
termination_by structural v
theorem easies_made {env : Env} {m : Mem} (l : List V) (h : easies l = true) : ∀ v ∈ l, Made env m v := by
  cases l with
  | nil => simp
  | cons v vs =>
    simp only [easies, Bool.and_eq_true] at h
    exact List.forall_mem_cons.2 ⟨(easy_made v h.1).1, easies_made vs h.2⟩
termination_by structural l
end

theorem easy_built {env : Env} {m m' : Mem} (hb : Built env m) {calls : List (ECls × List (String × V))} (he : (calls.all fun c => c.2.all fun e => easy e.2) = true)
    (h : callAll env m calls = .ok m') : Built env m' := by
  refine built_callAll calls hb ?_ h
  intro c hc e hce m
  exact easy_made _ (List.all_eq_true.1 (List.all_eq_true.1 he c hc) e hce)

/-- three materials: the first two share one id, the last two another -/
def chainCalls : List (ECls × List (String × V)) := [(.materialRun, [("name", .str "x"), ("uids", .dict [.str "a"] [.str "1"])]),
    (.materialRun, [("name", .str "y"), ("uids", .dict [.str "a", .str "b"] [.str "1", .str "2"])]),
    (.materialRun, [("name", .str "z"), ("uids", .dict [.str "b"] [.str "2"])])]

/-- what they make -/
def chain : Mem := match callAll plainEnv [] chainCalls with
  | .ok m => m
  | .error _ => []

/-- C39 fails for entities that share some but not all of their ids: the id of one entity in reach is in no result, since it is that of another one, which was
dropped because of its other id. -/
theorem C39_chain_counterexample : Built plainEnv chain ∧ Flattenable plainEnv chain (.list [.ref 0, .ref 1, .ref 2]) ∧
    (chain[2]?).map EObj.uids = some [("b", "2")] ∧
    ∃ n y, flatten plainEnv none (fun _ => "") n chain 0 (.list [.ref 0, .ref 1, .ref 2]) = some (.ok ([.ref 3], chain ++ [y])) ∧ y.uids = [("a", "1")] := by
  have hb : Built plainEnv chain := by
    refine easy_built (calls := chainCalls) Built.nil (by decide +kernel) ?_
    decide +kernel
  refine ⟨hb, flattenOk_spec (hb.wellTyped plainEnv_sane) (by decide +kernel), by decide +kernel, 30, (chain[0]?).getD ⟨.materialRun, [], []⟩, ?_, ?_⟩
  · decide +kernel
  · decide +kernel

/-- two materials whose ids differ in the case of the scope only -/
def shouting : Mem := match callAll { plainEnv with lower := String.toLower } [] [(.materialRun, [("name", .str "x"), ("uids", .dict [.str "id"] [.str "1"])]),
    (.materialRun, [("name", .str "y"), ("uids", .dict [.str "ID"] [.str "1"])])] with
  | .ok m => m
  | .error _ => []

/-- C39 fails for ids that differ in the case of the scope: they are the same id for `uids` and for `loads`, but both entities are in the result. -/
theorem C39_case_counterexample : ∃ n m', flatten { plainEnv with lower := String.toLower } none (fun _ => "") n shouting 0 (.list [.ref 0, .ref 1]) =
    some (.ok ([.ref 2, .ref 3], m')) ∧ Carries String.toLower m' 2 "id" "1" ∧ Carries String.toLower m' 3 "id" "1" := by
  have key : ((flatten { plainEnv with lower := String.toLower } none (fun _ => "") 30 shouting 0 (.list [.ref 0, .ref 1])).any fun r => match r with
      | .ok (l, m') => decide (l = [.ref 2, .ref 3]) && decide ((m'[2]?).map EObj.uids = some [("id", "1")]) && decide ((m'[3]?).map EObj.uids = some [("ID", "1")])
      | .error _ => false) = true := by decide +kernel
  rw [Option.any_eq_true] at key
  obtain ⟨r, hr, key⟩ := key
  cases r with
  | error e => simp at key
  | ok r =>
    obtain ⟨l, m'⟩ := r
    simp only [Bool.and_eq_true, decide_eq_true_eq] at key
    obtain ⟨⟨rfl, h2⟩, h3⟩ := key
    rw [Option.map_eq_some_iff] at h2 h3
    obtain ⟨x, hx, h2⟩ := h2
    obtain ⟨y, hy, h3⟩ := h3
    exact ⟨30, m', hr, ⟨x, hx, "id", by simp [h2], by decide +kernel⟩, ⟨y, hy, "ID", by simp [h3], by decide +kernel⟩⟩

/-- the hypotheses of `C39_no_id` are met -/
example : Reachable [⟨.processRun, [], []⟩] false (.list [.ref 0]) (.ref 0) := .step (.refl _) (.list (by simp))

end Verif.Substitute
