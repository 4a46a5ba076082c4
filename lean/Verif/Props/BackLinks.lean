import Verif.Props.RoundTrip
/-!
# Back-links of entities made by constructors
-/

set_option linter.unusedSimpArgs false
set_option linter.unusedVariables false
set_option linter.unusedSectionVars false

namespace Verif.Substitute
open Verif.Py Verif.Value Verif.Schema Verif.Json Verif.Traverse

theorem backRef_target (c : ECls) (there back : String) (h : backRef c = some (there, back)) : ∀ a ∈ eargs c, a.attr = there → ∃ cs, a.kind = .target cs := by
  have key : ∀ c : ECls, ∀ e ∈ (backRef c).toList, ((eargs c).all (fun a => !decide (a.attr = e.1) || match a.kind with | .target _ => true | _ => false)) = true := by
    intro c; cases c <;> decide +kernel
  intro a ha e
  have := List.all_eq_true.1 (key c (there, back) (by rw [h]; simp)) a ha
  simp only [Bool.or_eq_true, Bool.not_eq_true', decide_eq_false_iff_not] at this
  rcases this with h | h
  · exact absurd e h
  · cases hk : a.kind <;> simp [hk] at h
    exact ⟨_, rfl⟩

/-- what an entity points at exists -/
theorem shape_target {env : Env} {m : Mem} {x : EObj} {vals : List V} {own : List (String × V)} (hs : Shape env m x vals own) {there back : String}
    (hb : backRef x.cls = some (there, back)) {p : Nat} (hp : Dict.get? x.fields there = some (.ref p)) : p < m.length := by
  obtain ⟨a, ha, e1, _⟩ := backRef_arg _ _ _ hb
  obtain ⟨b, v, e2, e3, e4⟩ := get?_arg hs.len own ⟨a, ha, e1⟩
  rw [hs.fields, e4] at hp
  cases hp
  obtain ⟨cs, hk⟩ := backRef_target _ _ _ hb b (List.of_mem_zip e2).1 e3
  have := hs.conv _ e2
  simp only [hk, conv, convTarget, isCls] at this
  apply Classical.byContradiction
  intro hlt
  have hn : m[p]? = none := List.getElem?_eq_none (by omega)
  simp [hn, isLink] at this

theorem backRef_there {c : ECls} {there back : String} (h : backRef c = some (there, back)) : there ∉ backNames := by
  cases c <;> simp [backRef] at h <;> simp [h.1.symm, backNames]

theorem setField_points (m : Mem) (p : Nat) {back : String} (hb : back ∈ backNames) (g : V → V) (n : String) (a b : Nat) :
    pointsBack (setField m p back g) n a b = pointsBack m n a b := by
  cases hx : m[a]? with
  | none =>
    unfold pointsBack
    rw [setField_at, hx]
    rfl
  | some x =>
    apply Bool.eq_iff_iff.2
    by_cases e : a = p
    · rw [pointsBack_iff hx, pointsBack_iff (x := { x with fields := x.fields.map (fun h => if h.1 = back then (h.1, g h.2) else h) })
        (by rw [setField_at, hx, Option.map_some, if_pos e])]
      constructor
      · rintro ⟨there, h1, h2⟩
        rw [get?_map_other _ back g there (fun e => absurd hb (by rw [← e]; exact backRef_there h1))] at h2
        exact ⟨there, h1, h2⟩
      · rintro ⟨there, h1, h2⟩
        refine ⟨there, h1, ?_⟩
        rw [get?_map_other _ back g there (fun e => absurd hb (by rw [← e]; exact backRef_there h1))]
        exact h2
    · rw [pointsBack_iff hx, pointsBack_iff (x := x) (by rw [setField_at, hx, Option.map_some, if_neg e])]

/-- every back-link lists those that point at the entity, in the order in which they were made -/
def BackInv (env : Env) (m : Mem) : Prop := ∀ b x vals own, m[b]? = some x → Shape env m x vals own →
  ∃ name labels, own = ownAt m .ref (List.range m.length) x.cls b name labels

theorem ownAt_congr {m m' : Mem} {F : Nat → V} {os : List Nat} {c : ECls} {o : Nat} (name labels : V) (h : ∀ n, ∀ p ∈ os, pointsBack m n p o = pointsBack m' n p o) :
    ownAt m F os c o name labels = ownAt m' F os c o name labels := by
  unfold ownAt backers
  split
  · rfl
  · apply List.map_congr_left
    intro e _
    have : os.filter (fun o' => pointsBack m e.1 o' o) = os.filter (fun o' => pointsBack m' e.1 o' o) :=
      List.filter_congr (fun p hp => by rw [h e.1 p hp])
    rw [this]

theorem point_new {m : Mem} {x : EObj} (n : String) (b : Nat) :
    pointsBack (m ++ [x]) n m.length b = true ↔ ∃ there, backRef x.cls = some (there, n) ∧ Dict.get? x.fields there = some (.ref b) :=
  pointsBack_iff (by simp)

/-- a new entity -/
theorem BackInv.step {env : Env} {m : Mem} (h : BackInv env m) (hT : WellTyped env m) {x : EObj} {vals : List V} (hs : Shape env m x vals (ownFields x.cls)) :
    BackInv env (linkBack (m ++ [x]) m.length x) := by
  -- who points at whom
  have hold : ∀ n a b, a < m.length → pointsBack (m ++ [x]) n a b = pointsBack m n a b := by
    intro n a b ha
    unfold pointsBack
    rw [List.getElem?_append_left ha]
  have hnone : ∀ n a, a < m.length → pointsBack m n a m.length = false := by
    intro n a ha
    apply Bool.eq_false_iff.2
    intro hp
    have hx := List.getElem?_eq_getElem ha
    rw [pointsBack_iff hx] at hp
    obtain ⟨there, h1, h2⟩ := hp
    obtain ⟨vals', own', hs', _⟩ := hT a _ hx
    have := shape_target hs' h1 h2
    omega
  have hself : ∀ n, pointsBack (m ++ [x]) n m.length m.length = false := by
    intro n
    apply Bool.eq_false_iff.2
    intro hp
    rw [pointsBack_iff (x := x) (by simp)] at hp
    obtain ⟨there, h1, h2⟩ := hp
    have := shape_target hs h1 h2
    omega
  -- with the new entity, before it becomes known
  have hbefore : ∀ b y vals own, (m ++ [x])[b]? = some y → Shape env (m ++ [x]) y vals own →
      ∃ name labels, own = ownAt (m ++ [x]) .ref (List.range m.length) y.cls b name labels := by
    intro b y vals' own' hy hs'
    rcases Nat.lt_or_ge b m.length with hlt | hge
    · rw [List.getElem?_append_left hlt] at hy
      obtain ⟨vals2, own2, hs2, _⟩ := hT b y hy
      obtain ⟨_, e⟩ := Shape.unique hs' hs2
      subst e
      obtain ⟨name, labels, e⟩ := h b y vals2 _ hy hs2
      refine ⟨name, labels, e.trans (ownAt_congr _ _ ?_)⟩
      intro n p hp
      exact (hold n p b (List.mem_range.1 hp)).symm
    · have : b = m.length := by
        apply Classical.byContradiction
        intro hne
        rw [List.getElem?_eq_none (by simp; omega)] at hy
        cases hy
      subst this
      simp at hy
      subst hy
      obtain ⟨_, e⟩ := Shape.unique hs' hs
      subst e
      refine ⟨.none, .none, ?_⟩
      rw [ownAt_empty]
      · unfold loadedOwn
        split
        · rename_i hc; rw [hc]; rfl
        · rfl
      · intro n p hp
        rw [hold n p _ (List.mem_range.1 hp)]
        exact hnone n p (List.mem_range.1 hp)
  have hlen : (linkBack (m ++ [x]) m.length x).length = m.length + 1 := by rw [linkBack_length]; simp
  intro b y vals' own' hy hs'
  rw [hlen, List.range_succ]
  -- nobody becomes known
  have quiet : linkBack (m ++ [x]) m.length x = m ++ [x] → (∀ n, pointsBack (m ++ [x]) n m.length b = false) →
      ∃ name labels, own' = ownAt (linkBack (m ++ [x]) m.length x) .ref (List.range m.length ++ [m.length]) y.cls b name labels := by
    intro e hq
    rw [e] at hy hs' ⊢
    obtain ⟨name, labels, e'⟩ := hbefore b y vals' own' hy hs'
    exact ⟨name, labels, e'.trans (ownAt_other name labels hq).symm⟩
  cases hb : backRef x.cls with
  | none =>
    apply quiet
    · simp only [linkBack, hb]
    · intro n
      apply Bool.eq_false_iff.2
      rw [Ne, point_new, hb]
      rintro ⟨_, h, _⟩
      cases h
  | some tb =>
    obtain ⟨there, back⟩ := tb
    by_cases hp : ∃ p, Dict.get? x.fields there = some (.ref p)
    · obtain ⟨p, hp⟩ := hp
      have hl : linkBack (m ++ [x]) m.length x = setField (m ++ [x]) p back (if back = "_output_material" then fun _ => .ref m.length else appendTo (.ref m.length)) := by
        simp only [linkBack, hb, hp]
      rw [hl] at hy hs' ⊢
      have hbn := backRef_names hb
      have hpt : ∀ n, pointsBack (m ++ [x]) n m.length b = (decide (back = n) && decide (p = b)) := by
        intro n
        apply Bool.eq_iff_iff.2
        rw [point_new, hb]
        constructor
        · rintro ⟨_, h1, h2⟩
          cases h1
          rw [hp] at h2
          cases h2
          simp
        · intro h
          simp only [Bool.and_eq_true, decide_eq_true_eq] at h
          exact ⟨there, by rw [h.1], by rw [hp, h.2]⟩
      rw [setField_at] at hy
      cases hy0 : (m ++ [x])[b]? with
      | none => rw [hy0] at hy; simp at hy
      | some y0 =>
        rw [hy0] at hy
        simp only [Option.map_some, Option.some.injEq] at hy
        obtain ⟨vals0, own0, hs0, _⟩ := (hT.append hs (fun hi => ⟨.none, .none, by rw [hi]; rfl, .inl rfl, .inl rfl⟩)) b y0 hy0
        obtain ⟨name, labels, e⟩ := hbefore b y0 vals0 own0 hy0 hs0
        refine ⟨name, labels, ?_⟩
        rw [ownAt_congr (m' := m ++ [x]) name labels (fun n a _ => setField_points (m ++ [x]) p hbn _ n a b)]
        by_cases hbp : b = p
        · subst hbp
          rw [if_pos rfl] at hy
          subst hy
          have hset := hs0.set hbn (if back = "_output_material" then fun _ => V.ref m.length else appendTo (.ref m.length))
          obtain ⟨_, e2⟩ := Shape.unique hs' hset
          rw [e2, e]
          exact ownAt_point (F := V.ref) name labels hbn (fun n => by rw [hpt]; simp)
        · rw [if_neg hbp] at hy
          subst hy
          obtain ⟨_, e2⟩ := Shape.unique hs' hs0
          rw [e2, e]
          refine (ownAt_other name labels (fun n => ?_)).symm
          rw [hpt]
          have : ¬ p = b := fun e => hbp e.symm
          simp [this]
    · apply quiet
      · simp only [linkBack, hb]
        split
        · rename_i p hp'; exact absurd ⟨p, hp'⟩ hp
        · rfl
      · intro n
        apply Bool.eq_false_iff.2
        rw [Ne, point_new, hb]
        rintro ⟨_, h1, h2⟩
        cases h1
        exact hp ⟨b, h2⟩

theorem Built.backInv {env : Env} (hsane : Sane env) {m : Mem} (h : Built env m) : BackInv env m := by
  induction h with
  | nil => intro b x vals own hx; simp at hx
  | call m c kwargs o m' hb hk hc ih =>
    unfold constructE at hc
    split at hc
    · cases hc
    · rename_i x hx
      cases hc
      obtain ⟨h1, vals, h2⟩ := newEntity_shape hsane (fun e he => ⟨(hk e he).1.okV hsane, (hk e he).2⟩) hx
      subst h1
      exact ih.step (hb.wellTyped hsane) h2

/-- In a memory made by constructors, back-links are up to date, if no two materials in reach have the same process. -/
theorem Built.backLinked {env : Env} (hsane : Sane env) {m : Mem} (h : Built env m) {root : V}
    (hone : ∀ a c b, Reachable m false root (.ref a) → Reachable m false root (.ref c) → Points m "_output_material" a b → Points m "_output_material" c b → a = c) :
    BackLinked m root := by
  intro b x hx hr n hn v hv
  obtain ⟨vals, own, hs, _⟩ := h.wellTyped hsane b x hx
  obtain ⟨name, labels, e⟩ := Built.backInv hsane h b x vals own hx hs
  have hgx : Dict.get? x.fields n = Dict.get? own n := by
    rw [hs.fields, get?_append, get?_zip_none _ _ _ (backNames_args x.cls n hn)]; rfl
  have hc : x.cls ≠ .ingredientRun := by
    intro hc
    rw [hgx, e] at hv
    unfold ownAt at hv
    rw [if_pos hc] at hv
    have : ∀ n ∈ backNames, n ≠ "_name" ∧ n ≠ "_labels" := by decide +kernel
    have := this n hn
    simp [Dict.get?, Ne.symm this.1, Ne.symm this.2] at hv
  have hv2 := hv
  rw [hgx, e] at hv
  unfold ownAt at hv
  rw [if_neg hc, get?_mapFst _ (fun k => backVal k (backers m .ref (List.range m.length) k b))] at hv
  split at hv
  · cases hv
    have hpt : ∀ a, a ∈ (List.range m.length).filter (fun o' => pointsBack m n o' b) ↔ Points m n a b := by
      intro a
      rw [List.mem_filter, List.mem_range, points_iff]
      refine ⟨fun h => h.2, fun h => ⟨?_, h⟩⟩
      cases h with
      | output h _ _ => exact (List.getElem?_eq_some_iff.1 h).1
      | ingredient h _ _ => exact (List.getElem?_eq_some_iff.1 h).1
      | measurement h _ _ => exact (List.getElem?_eq_some_iff.1 h).1
    have hnd : ((List.range m.length).filter (fun o' => pointsBack m n o' b)).Nodup := List.nodup_range.filter _
    unfold backVal backers at hv2 ⊢
    generalize (List.range m.length).filter (fun o' => pointsBack m n o' b) = bs at *
    by_cases hno : n = "_output_material"
    · rw [if_pos hno] at hv2 ⊢
      rw [List.getLast?_map] at hv2 ⊢
      cases hl : bs.getLast? with
      | none =>
        refine .none hno (fun a _ hp => ?_)
        rw [List.getLast?_eq_none_iff] at hl
        subst hl
        simpa using (hpt a).2 hp
      | some a =>
        rw [hl] at hv2
        have ha := (hpt a).1 (List.mem_of_getLast? hl)
        have hra : Reachable m false root (.ref a) := hr.step (.field hx (Dict.mem_of_get? hv2) (by simp))
        subst hno
        exact .one a rfl ha (fun c hc hp => hone c a b hc hra hp ha)
    · rw [if_neg hno]
      exact .many bs hno hnd (fun a ha => (hpt a).1 ha) (fun a _ hp => (hpt a).2 hp)
  · cases hv

/-- C43 for entities made by constructors: nothing is asked of back-links, except that no two materials in reach have the same process. -/
theorem C43_built_partial (env : Env) (hsane : Sane env) (m : Mem) (hb : Built env m) (obj : V) (scope : String) (gen : Nat → String) (drawn : Nat)
    (graph : Flattenable env m obj) (there : ∀ o, Reachable m false obj (.ref o) → o < m.length) (hwf : wf obj) (htup : noTuple obj) (hok : okV env m obj)
    (apart : Unambiguous env.lower m obj) (foreign : Foreign env.lower m obj)
    (one : ∀ a c b, Reachable m false obj (.ref a) → Reachable m false obj (.ref c) → Points m "_output_material" a b → Points m "_output_material" c b → a = c)
    (hsc : scope ≠ "type") (hf : Fresh env.lower m obj scope gen drawn) :
    ∃ n m1 t M, (∀ n' ≥ n, dumps env scope gen n' m drawn obj = some (.ok (t, M))) ∧ Numbered scope m m1 obj ∧ Extends m1 M ∧
      ∀ M0 : Mem, ∃ w m' φ, loads env M0 t = .ok (w, m') ∧ Iso m1 obj m' w φ ∧ ∀ o, Reachable m1 false obj (.ref o) → M0.length ≤ φ o :=
  C43_round_trip_partial env m obj scope gen drawn ⟨graph, there, hwf, htup, hok, apart, foreign, Built.backLinked hsane hb one⟩ hsc hf

/-! ### The hypotheses can be met -/

theorem child_in {m : Mem} {u w : V} (h : Child m false u w) (hu : ∀ o, u ≠ .ref o) (hl : ∀ s i, u ≠ .link s i) : w ∈ u.subs := by
  cases h with
  | list h => simp only [V.subs, List.mem_cons, mem_subss]; exact .inr ⟨_, h, self_mem_subs _⟩
  | tuple h => simp only [V.subs, List.mem_cons, mem_subss]; exact .inr ⟨_, h, self_mem_subs _⟩
  | key h => simp only [V.subs, List.mem_cons, List.mem_append, mem_subss]; exact .inr (.inl ⟨_, h, self_mem_subs _⟩)
  | value h => simp only [V.subs, List.mem_cons, List.mem_append, mem_subss]; exact .inr (.inr ⟨_, h, self_mem_subs _⟩)
  | attr h => simp only [V.subs, List.mem_cons, mem_subss]; exact .inr ⟨_, (List.of_mem_zip h).2, self_mem_subs _⟩
  | scope => exact absurd rfl (hl _ _)
  | id => exact absurd rfl (hl _ _)
  | field _ _ _ => exact absurd rfl (hu _)

mutual
theorem subs_trans (v : V) (u w : V) (h1 : u ∈ v.subs) (h2 : w ∈ u.subs) : w ∈ v.subs := by
  cases v with
  | list l =>
    simp only [V.subs, List.mem_cons] at h1 ⊢
    rcases h1 with rfl | h1
    · simpa only [V.subs, List.mem_cons] using h2
    · exact .inr (subss_trans l u w h1 h2)
  | tuple l =>
    simp only [V.subs, List.mem_cons] at h1 ⊢
    rcases h1 with rfl | h1
    · simpa only [V.subs, List.mem_cons] using h2
    · exact .inr (subss_trans l u w h1 h2)
  | dict ks vs =>
    simp only [V.subs, List.mem_cons, List.mem_append] at h1 ⊢
    rcases h1 with rfl | h1 | h1
    · simpa only [V.subs, List.mem_cons, List.mem_append] using h2
    · exact .inr (.inl (subss_trans ks u w h1 h2))
    · exact .inr (.inr (subss_trans vs u w h1 h2))
  | obj t ns vs =>
    simp only [V.subs, List.mem_cons] at h1 ⊢
    rcases h1 with rfl | h1
    · simpa only [V.subs, List.mem_cons] using h2
    · exact .inr (subss_trans vs u w h1 h2)
  | link s i =>
    simp only [V.subs, List.mem_cons, List.not_mem_nil, or_false] at h1
    rcases h1 with rfl | rfl | rfl
    · exact h2
    all_goals
      simp only [V.subs, List.mem_cons, List.not_mem_nil, or_false] at h2
      subst h2
      simp [V.subs]
  | _ => simp only [V.subs, List.mem_cons, List.not_mem_nil, or_false] at h1; subst h1; exact h2
termination_by structural v
theorem subss_trans (l : List V) (u w : V) (h1 : u ∈ subss l) (h2 : w ∈ u.subs) : w ∈ subss l := by
  cases l with
  | nil => simp [subss] at h1
  | cons v vs =>
    simp only [subss, List.mem_append] at h1 ⊢
    rcases h1 with h1 | h1
    · exact .inl (subs_trans v u w h1 h2)
    · exact .inr (subss_trans vs u w h1 h2)
termination_by structural l
end

/-- what is in reach occurs in the root or in some attribute, or is a part of a link -/
theorem reach_in {m : Mem} {root w : V} (h : Reachable m false root w) : w ∈ root.subs ∨ (∃ x ∈ m, ∃ f ∈ x.fields, w ∈ f.2.subs) ∨ ∃ s, w = .str s := by
  induction h with
  | refl => exact .inl (self_mem_subs _)
  | @step v w _ hc ih =>
    by_cases hr : ∃ o, v = .ref o
    · obtain ⟨o, rfl⟩ := hr
      cases hc with
      | field hx hm _ => exact .inr (.inl ⟨_, List.mem_of_getElem? hx, _, hm, self_mem_subs _⟩)
    · by_cases hl : ∃ s i, v = .link s i
      · obtain ⟨s, i, rfl⟩ := hl
        cases hc with
        | scope => exact .inr (.inr ⟨_, rfl⟩)
        | id => exact .inr (.inr ⟨_, rfl⟩)
      · have hin := child_in hc (fun o e => hr ⟨o, e⟩) (fun s i e => hl ⟨s, i, e⟩)
        rcases ih with h | ⟨x, hx, f, hf, h⟩ | ⟨s, rfl⟩
        · exact .inl (subs_trans _ _ _ h hin)
        · exact .inr (.inl ⟨x, hx, f, hf, subs_trans _ _ _ h hin⟩)
        · cases hc

/-- two more: an ingredient that uses a material known by its id only, and a measurement; neither has an id -/
def tripCalls : List (ECls × List (String × V)) :=
  [(.ingredientRun, [("process", .ref 3), ("material", .link "id" "far")]),
   (.measurementRun, [("name", .str "w"), ("material", .ref 5)])]

/-- what they make -/
def trip : Mem := match callAll plainEnv sample tripCalls with
  | .ok m => m
  | .error _ => []

theorem trip_built : Built plainEnv trip := easy_built (calls := tripCalls) sample_built (by decide +kernel) (by decide +kernel)

/-- the distinct strings that `uuid4` returns -/
def xs (k : Nat) : String := String.ofList (List.replicate k 'x')

theorem xs_inj (j k : Nat) (h : xs j = xs k) : j = k := by
  unfold xs at h
  have := congrArg (fun s => s.toList.length) h
  simpa using this

theorem trip_uids {o : Nat} {s i : String} (h : Carries plainEnv.lower trip o s i) : ∃ x, trip[o]? = some x ∧ s = "id" ∧ x.uids = [("id", i)] ∧ i ≠ "far" := by
  obtain ⟨x, hx, sc, h1, h2⟩ := h
  have key : ∀ x ∈ trip, ∀ u ∈ x.uids, x.uids = [("id", u.2)] ∧ u.1 = "id" ∧ u.2 ≠ "far" := by decide +kernel
  obtain ⟨k1, k2, k3⟩ := key x (List.mem_of_getElem? hx) _ h1
  refine ⟨x, hx, ?_, k1, k3⟩
  simp only [plainEnv, id] at h2
  rw [← h2]
  exact k2

theorem trip_ref {o : Nat} (h : Reachable trip false (.ref 4) (.ref o)) : o < trip.length := by
  rcases reach_in h with h | ⟨x, hx, f, hf, h⟩ | ⟨s, h⟩
  · simp [V.subs] at h
    subst h
    decide +kernel
  · have key : ∀ x ∈ trip, ∀ f ∈ x.fields, ∀ w ∈ f.2.subs, (match w with | .ref p => decide (p < trip.length) | _ => true) = true := by decide +kernel
    simpa using key x hx f hf _ h
  · cases h

theorem trip_link {s i : String} (h : Reachable trip false (.ref 4) (.link s i)) : s = "id" ∧ i = "far" := by
  rcases reach_in h with h | ⟨x, hx, f, hf, h⟩ | ⟨s, h⟩
  · simp [V.subs] at h
  · have key : ∀ x ∈ trip, ∀ f ∈ x.fields, ∀ w ∈ f.2.subs, (match w with | .link s i => decide (s = "id" ∧ i = "far") | _ => true) = true := by decide +kernel
    simpa using key x hx f hf _ h
  · cases h

/-- the hypotheses of `C43_built_partial` are met by a material with a process that has two ingredients, one of them, and a measurement, without ids, and one that
uses a material that is not there -/
theorem trip_meets : Built plainEnv trip ∧ Flattenable plainEnv trip (.ref 4) ∧ (∀ o, Reachable trip false (.ref 4) (.ref o) → o < trip.length) ∧
    okV plainEnv trip (.ref 4) ∧ Unambiguous plainEnv.lower trip (.ref 4) ∧ Foreign plainEnv.lower trip (.ref 4) ∧
    (∀ a c b, Reachable trip false (.ref 4) (.ref a) → Reachable trip false (.ref 4) (.ref c) → Points trip "_output_material" a b →
      Points trip "_output_material" c b → a = c) ∧
    Fresh plainEnv.lower trip (.ref 4) "auto" xs 0 ∧ Reachable trip false (.ref 4) (.link "id" "far") := by
  refine ⟨trip_built, flattenOk_spec (trip_built.wellTyped plainEnv_sane) (by decide +kernel), fun o => trip_ref, ?_, ?_, ?_, ?_, ⟨xs_inj, ?_, ?_⟩, ?_⟩
  · simp [okV]
  · intro o p s i _ _ h1 h2
    obtain ⟨x, hx, _, e1, _⟩ := trip_uids h1
    obtain ⟨y, hy, _, e2, _⟩ := trip_uids h2
    have key : ∀ a ∈ List.range trip.length, ∀ b ∈ List.range trip.length, a ≠ b → (trip[a]?.map EObj.uids) = trip[b]?.map EObj.uids → (trip[a]?.map EObj.uids) = some [] := by
      decide +kernel
    apply Classical.byContradiction
    intro hne
    have := key o (List.mem_range.2 (List.getElem?_eq_some_iff.1 hx).1) p (List.mem_range.2 (List.getElem?_eq_some_iff.1 hy).1) hne (by rw [hx, hy]; simp [e1, e2])
    rw [hx] at this
    simp [e1] at this
  · intro s i p h _ hc
    obtain ⟨_, _, _, _, h2⟩ := trip_uids hc
    exact h2 (trip_link h).2
  · intro a c b _ _ h1 h2
    rw [← points_iff] at h1 h2
    have key : ∀ a ∈ List.range trip.length, ∀ c ∈ List.range trip.length, ∀ b ∈ List.range trip.length, pointsBack trip "_output_material" a b = true →
      pointsBack trip "_output_material" c b = true → a = c := by decide +kernel
    have lt : ∀ a, pointsBack trip "_output_material" a b = true → a < trip.length ∧ b < trip.length := by
      intro a ha
      have hal : a < trip.length := by
        apply Classical.byContradiction
        intro hge
        unfold pointsBack at ha
        rw [List.getElem?_eq_none (by omega)] at ha
        cases ha
      have hx := List.getElem?_eq_getElem hal
      obtain ⟨there, e1, e2⟩ := (pointsBack_iff hx).1 ha
      obtain ⟨_, _, hs, _⟩ := trip_built.wellTyped plainEnv_sane a _ hx
      exact ⟨hal, shape_target hs e1 e2⟩
    exact key a (List.mem_range.2 (lt a h1).1) c (List.mem_range.2 (lt c h2).1) b (List.mem_range.2 (lt a h1).2) h1 h2
  · intro k _ p _ hc
    obtain ⟨_, _, h, _⟩ := trip_uids hc
    simp [plainEnv] at h
  · intro k _ s h
    rw [(trip_link h).1]
    simp [plainEnv]
  · have f1 : ∃ x, trip[4]? = some x ∧ ("_process", V.ref 3) ∈ x.fields := by
      have : (trip[4]?).any (fun x => decide (("_process", V.ref 3) ∈ x.fields)) = true := by decide +kernel
      rw [Option.any_eq_true] at this
      obtain ⟨x, hx, h⟩ := this
      exact ⟨x, hx, by simpa using h⟩
    have f2 : ∃ x, trip[3]? = some x ∧ ("_ingredients", V.list [.ref 6, .ref 8]) ∈ x.fields := by
      have : (trip[3]?).any (fun x => decide (("_ingredients", V.list [.ref 6, .ref 8]) ∈ x.fields)) = true := by decide +kernel
      rw [Option.any_eq_true] at this
      obtain ⟨x, hx, h⟩ := this
      exact ⟨x, hx, by simpa using h⟩
    have f3 : ∃ x, trip[8]? = some x ∧ ("_material", V.link "id" "far") ∈ x.fields := by
      have : (trip[8]?).any (fun x => decide (("_material", V.link "id" "far") ∈ x.fields)) = true := by decide +kernel
      rw [Option.any_eq_true] at this
      obtain ⟨x, hx, h⟩ := this
      exact ⟨x, hx, by simpa using h⟩
    obtain ⟨x1, h1, m1⟩ := f1
    obtain ⟨x2, h2, m2⟩ := f2
    obtain ⟨x3, h3, m3⟩ := f3
    exact .step (.step (.step (.step (.refl _) (.field h1 m1 (by simp))) (.field h2 m2 (by simp))) (.list (by simp))) (.field h3 m3 (by simp))

/-! ### Where the property fails -/

theorem alikes_mem {L : Nat → V → Prop} {G : String → String → V → Prop} {l l' : List V} (h : alikes L G l l') {v : V} (hv : v ∈ l) :
    ∃ w ∈ l', alike L G v w := by
  induction l generalizing l' with
  | nil => simp at hv
  | cons a l ih =>
    cases l' with
    | nil => simp [alikes] at h
    | cons b l' =>
      simp only [alikes] at h
      obtain ⟨_, _, e, h⟩ := h
      cases e
      rcases List.mem_cons.1 hv with rfl | hv
      · exact ⟨b, by simp, h.1⟩
      · obtain ⟨w, hw, ha⟩ := ih h.2 hv
        exact ⟨w, by simp [hw], ha⟩

/-- what `loads(dumps(obj))` returns -/
def trip? (m : Mem) (obj : V) : Option (V × Mem) := match dumps plainEnv "auto" xs 200 m 0 obj with
  | some (.ok (t, _)) => (match loads plainEnv [] t with
    | .ok r => some r
    | .error _ => none)
  | _ => none

/-- C43 fails when a link means an entity in reach: `loads` puts the entity in its place. The measurement `8` is of a link to `n`, and no attribute of any entity
that is loaded holds a link. -/
theorem C43_link_counterexample : Built plainEnv linkedSample ∧ Flattenable plainEnv linkedSample linkedRoot ∧ Identified linkedSample linkedRoot ∧
    ∃ n t M w m', dumps plainEnv "auto" xs n linkedSample 0 linkedRoot = some (.ok (t, M)) ∧ loads plainEnv [] t = .ok (w, m') ∧
      ∀ φ, ¬ Iso linkedSample linkedRoot m' w φ := by
  refine ⟨linkedSample_built, linkedSample_flattenable, linkedSample_identified, 200, ?_⟩
  have key : ((dumps plainEnv "auto" xs 200 linkedSample 0 linkedRoot).any fun r => match r with
      | .ok (t, _) => (match loads plainEnv [] t with
        | .ok (_, m') => m'.all fun z => (asDict m' z).all fun e => match e.2 with | .link _ _ => false | _ => true
        | .error _ => false)
      | .error _ => false) = true := by decide +kernel
  rw [Option.any_eq_true] at key
  obtain ⟨r, hr, key⟩ := key
  cases r with
  | error e => simp at key
  | ok r =>
    obtain ⟨t, M⟩ := r
    simp only at key
    cases hl : loads plainEnv [] t with
    | error e => rw [hl] at key; simp at key
    | ok r =>
      obtain ⟨w, m'⟩ := r
      rw [hl] at key
      refine ⟨t, M, w, m', hr, hl, ?_⟩
      intro φ hi
      have : (linkedSample[8]?).any (fun x => decide (("material", V.link "id" "n") ∈ asDict linkedSample x)) = true := by decide +kernel
      rw [Option.any_eq_true] at this
      obtain ⟨x, hx, h⟩ := this
      simp only [decide_eq_true_eq] at h
      obtain ⟨z, hz, _, _, _, h2, _⟩ := hi.node 8 x hx (.step (.refl _) (.list (by simp)))
      obtain ⟨u, hu, ha⟩ := alikes_mem h2 (List.mem_map_of_mem (f := Prod.snd) h)
      obtain ⟨e, he, rfl⟩ := List.mem_map.1 hu
      have h3 := List.all_eq_true.1 (List.all_eq_true.1 key z (List.mem_of_getElem? hz)) e he
      cases hv : e.2 <;> rw [hv] at ha h3 <;> simp [alike, SameLink] at ha h3

/-- a process and two materials -/
def sharedCalls : List (ECls × List (String × V)) := [(.processRun, [("name", .str "p"), ("uids", .dict [.str "id"] [.str "p"])]),
  (.materialRun, [("name", .str "a"), ("process", .ref 0), ("uids", .dict [.str "id"] [.str "a"])]),
  (.materialRun, [("name", .str "b"), ("process", .ref 0), ("uids", .dict [.str "id"] [.str "b"])])]

/-- what they make -/
def shared : Mem := match callAll plainEnv [] sharedCalls with
  | .ok m => m
  | .error _ => []

/-- C43 fails when two materials have the same process: its output is the one made last, and in the copy the one loaded last. -/
theorem C43_shared_process_counterexample : Built plainEnv shared ∧ Flattenable plainEnv shared (.list [.ref 2, .ref 1]) ∧
    Identified shared (.list [.ref 2, .ref 1]) ∧ ∃ n t M w m', dumps plainEnv "auto" xs n shared 0 (.list [.ref 2, .ref 1]) = some (.ok (t, M)) ∧
      loads plainEnv [] t = .ok (w, m') ∧ ∀ φ, ¬ Iso shared (.list [.ref 2, .ref 1]) m' w φ := by
  have hb : Built plainEnv shared := easy_built (calls := sharedCalls) Built.nil (by decide +kernel) (by decide +kernel)
  refine ⟨hb, flattenOk_spec (hb.wellTyped plainEnv_sane) (by decide +kernel), ?_, 200, ?_⟩
  · intro o x hx _
    have key : ∀ x ∈ shared, x.uids ≠ [] := by decide +kernel
    exact key x (List.mem_of_getElem? hx)
  have key : ((dumps plainEnv "auto" xs 200 shared 0 (.list [.ref 2, .ref 1])).any fun r => match r with
      | .ok (t, _) => (match loads plainEnv [] t with
        | .ok (w, m') => decide (w = .list [.ref 1, .ref 2]) && m'.all fun z => match Dict.get? z.fields "_output_material" with
          | some v => decide (v = .ref 2)
          | none => true
        | .error _ => false)
      | .error _ => false) = true := by decide +kernel
  rw [Option.any_eq_true] at key
  obtain ⟨r, hr, key⟩ := key
  cases r with
  | error e => simp at key
  | ok r =>
    obtain ⟨t, M⟩ := r
    simp only at key
    cases hl : loads plainEnv [] t with
    | error e => rw [hl] at key; simp at key
    | ok r =>
      obtain ⟨w, m'⟩ := r
      rw [hl] at key
      simp only [Bool.and_eq_true, decide_eq_true_eq] at key
      obtain ⟨rfl, key⟩ := key
      refine ⟨t, M, _, m', hr, hl, ?_⟩
      intro φ hi
      have h1 := hi.root
      simp only [alike, alikes, V.list.injEq] at h1
      have e1 : 1 = φ 2 ∧ φ 1 = 2 := by simpa [eq_comm] using h1
      have f0 : (shared[0]?).any (fun x => decide (Dict.get? x.fields "_output_material" = some (.ref 2))) = true := by decide +kernel
      have f1 : (shared[2]?).any (fun x => decide (("_process", V.ref 0) ∈ x.fields)) = true := by decide +kernel
      rw [Option.any_eq_true] at f0 f1
      obtain ⟨x0, hx0, h0⟩ := f0
      obtain ⟨x2, hx2, h2⟩ := f1
      simp only [decide_eq_true_eq] at h0 h2
      obtain ⟨z, hz, _, _, _, _, hbk⟩ := hi.node 0 x0 hx0 (.step (.step (.refl _) (.list (by simp))) (.field hx2 h2 (by simp)))
      have h3 := hbk "_output_material" (by decide)
      rw [h0] at h3
      cases hg : Dict.get? z.fields "_output_material" with
      | none => rw [hg] at h3; cases h3
      | some v =>
        have h4 := List.all_eq_true.1 key z (List.mem_of_getElem? hz)
        rw [hg] at h3 h4
        simp only [decide_eq_true_eq] at h4
        subst h4
        have inv : ∀ u, SameBack φ (some (.ref 2)) (some u) → u = .ref (φ 2) := by
          intro u h
          cases h
          rfl
        have := inv _ h3
        simp only [V.ref.injEq] at this
        omega

/-- C43 fails for tuples: they come back as lists. -/
theorem C43_tuple_counterexample : ∃ n t M w m', dumps plainEnv "auto" xs n [] 0 (.tuple [.int 1]) = some (.ok (t, M)) ∧ loads plainEnv [] t = .ok (w, m') ∧
    ∀ φ, ¬ Iso [] (.tuple [.int 1]) m' w φ := by
  have h : trip? [] (.tuple [.int 1]) = some (.list [.int 1], []) := by decide +kernel
  unfold trip? at h
  split at h
  · rename_i t M hd
    split at h
    · rename_i r hl
      cases h
      refine ⟨_, t, M, _, _, hd, hl, ?_⟩
      intro φ hi
      have := hi.root
      simp [alike] at this
    · cases h
  · cases h

end Verif.Substitute
