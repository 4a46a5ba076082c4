import Verif.Props.CheckedSpec
/-!
# C69: which graphs can be loaded at which level
-/

set_option linter.unusedSimpArgs false
set_option linter.unusedVariables false
set_option linter.unusedSectionVars false

namespace Verif.Checked
open Verif.Py Verif.Value Verif.Schema Verif.Json Verif.Level Verif.Substitute Verif.Traverse

/-! ## The round trip at a level -/

/-- C43 at all levels: what was written is read back, or refused, according to the checks of what is in reach -/
theorem trip_at {env : Env} {J : Judge} {m : Mem} {obj : V} (scope : String) (gen : Nat → String) (drawn : Nat) (hJ : Fair env.lower J) (h : Writable env m obj)
    (hsc : scope ≠ "type") (hf : Fresh env.lower m obj scope gen drawn) :
    ∃ n m1 t M, (∀ n' ≥ n, dumps env scope gen n' m drawn obj = some (.ok (t, M))) ∧ Numbered scope m m1 obj ∧ Extends m1 M ∧
      ∀ M0 : Mem, ∃ w m' φ, Iso m1 obj m' w φ ∧ (∀ o, Reachable m1 false obj (.ref o) → M0.length ≤ φ o) ∧
        ∀ lv, ((∀ u, Reachable m1 false obj u → guard J lv m1 u = .ok ()) → loadsAt J lv env M0 t = .ok (w, m')) ∧
          ((∃ u, Reachable m1 false obj u ∧ guard J lv m1 u ≠ .ok ()) → ∃ e, loadsAt J lv env M0 t = .error e) := by
  obtain ⟨n, m1, c1, h1, h2, h3⟩ := writable_numbered scope gen drawn h hsc hf
  obtain ⟨n2, l, M, t, k1, ⟨ys, rfl⟩, _, k3, k4⟩ := round_trip h3 h2.all
  obtain ⟨n3, l', M', t', q1, _, q3, q4⟩ := written_at hJ h3 h2.all
  have e1 := (k1 (max n2 n3) (by omega)).symm.trans (q1 (max n2 n3) (by omega))
  cases e1
  rw [k3] at q3
  cases q3
  refine ⟨max n n2, m1, t, m1 ++ ys, ?_, h2, ⟨ys, rfl⟩, fun M0 => ?_⟩
  · intro n' hn'
    unfold dumps
    simp only [flatten, h1 n' (by omega), k1 n' (by omega), k3]
  · obtain ⟨w, m', φ, j1, j2, j3, _⟩ := k4 M0
    refine ⟨w, m', φ, j2, j3, fun lv => ⟨fun hg => (q4 M0 lv _).2 ⟨j1, hg⟩, ?_⟩⟩
    rintro ⟨u, hu, hg⟩
    cases hl : loadsAt J lv env M0 t with
    | error e => exact ⟨e, rfl⟩
    | ok r => exact absurd (((q4 M0 lv r).1 hl).2 u hu) hg

/-- C69: at level FATAL a graph that was written can be read back if and only if nothing in reach is objectionable, and then the copy is as in C43. -/
theorem C69_fatal_partial (env : Env) (J : Judge) (m : Mem) (obj : V) (scope : String) (gen : Nat → String) (drawn : Nat) (hJ : Fair env.lower J)
    (h : Writable env m obj) (hsc : scope ≠ "type") (hf : Fresh env.lower m obj scope gen drawn) :
    ∃ n m1 t M, (∀ n' ≥ n, dumps env scope gen n' m drawn obj = some (.ok (t, M))) ∧ Numbered scope m m1 obj ∧ Extends m1 M ∧
      ∀ M0 : Mem, ∃ w m' φ, Iso m1 obj m' w φ ∧ (∀ o, Reachable m1 false obj (.ref o) → M0.length ≤ φ o) ∧
        ((∀ u, Reachable m1 false obj u → Sound J m1 u) → loadsAt J .fatal env M0 t = .ok (w, m')) ∧
        ((∃ u, Reachable m1 false obj u ∧ ¬ Sound J m1 u) → ∃ e, loadsAt J .fatal env M0 t = .error e) := by
  obtain ⟨n, m1, t, M, h1, h2, h3, h4⟩ := trip_at scope gen drawn hJ h hsc hf
  refine ⟨n, m1, t, M, h1, h2, h3, fun M0 => ?_⟩
  obtain ⟨w, m', φ, j1, j2, j3⟩ := h4 M0
  refine ⟨w, m', φ, j1, j2, fun hs => (j3 .fatal).1 (fun u hu => (guard_fatal _ _ _).2 (hs u hu)), ?_⟩
  rintro ⟨u, hu, hn⟩
  exact (j3 .fatal).2 ⟨u, hu, fun hg => hn ((guard_fatal _ _ _).1 hg)⟩

/-! ## At level WARNING -/

/-- the object templates in reach list attribute templates, not links -/
def Listed (m : Mem) (obj : V) : Prop := ∀ T n l, Reachable m false obj (.ref T) → n = "_properties" ∨ n = "_conditions" ∨ n = "_parameters" →
  field m (.ref T) n = .list l → ∀ t b, V.list [t, b] ∈ l → ∃ o, t = .ref o

theorem field_child {m : Mem} {v : V} {n : String} {t : Nat} (h : field m v n = .ref t) : Child m false v (.ref t) := by
  unfold field at h
  split at h
  · split at h
    · rename_i x hx
      cases hg : Dict.get? x.fields n with
      | none => simp [hg] at h
      | some w =>
        simp only [hg, Option.getD_some] at h
        subst h
        exact .field hx (Dict.mem_of_get? hg) (by simp)
    · cases h
  · cases h

theorem field_of_ref {m : Mem} {v w : V} {n : String} (h : field m v n = w) (hw : w ≠ .none) : ∃ o, v = .ref o := by
  unfold field at h
  split at h
  · exact ⟨_, rfl⟩
  · exact absurd h.symm hw

theorem templateOf_reach {m : Mem} {c : ECls} {root v : V} {t : Nat} (hv : Reachable m false root v) (h : templateOf m c v = .ref t) : Reachable m false root (.ref t) := by
  have two : field m (field m v "_spec") "_template" = .ref t → Reachable m false root (.ref t) := by
    intro h
    obtain ⟨s, hs⟩ := field_of_ref h (by simp)
    rw [hs] at h
    exact (hv.step (field_child hs)).step (field_child h)
  cases c <;> simp only [templateOf] at h <;> first
    | exact hv.step (field_child h)
    | exact two h
    | cases h

theorem applies_total {J : Judge} {m : Mem} {template name : V} {es : List V} (h : ∀ a b, V.list [a, b] ∈ es → ∃ o, a = .ref o) :
    ∃ r, applies J m template name es = .ok r := by
  induction es with
  | nil => exact ⟨none, rfl⟩
  | cons e es ih =>
    have ih := ih (fun a b hm => h a b (List.mem_cons_of_mem _ hm))
    unfold applies
    cases he : entry e with
    | none => exact ih
    | some p =>
      obtain ⟨a, b⟩ := p
      obtain ⟨o, rfl⟩ := h a b (by rw [← entry_some.1 he]; simp)
      simp only
      split
      · split
        · exact ⟨_, rfl⟩
        · exact ih
      · split
        · exact ⟨_, rfl⟩
        · exact ih

theorem validate_total {J : Judge} (hJ : Total J) {m : Mem} {k : ECls} {es : List V} {a : V} (h : ∀ t b, V.list [t, b] ∈ es → ∃ o, t = .ref o) :
    ∃ r, validate J m k es a = .ok r := by
  obtain ⟨r, hr⟩ := applies_total (J := J) (m := m) (template := (view a).1) (name := (view a).2.1) h
  unfold validate
  rw [hr]
  cases r with
  | none => exact ⟨true, rfl⟩
  | some p =>
    obtain ⟨t, b⟩ := p
    simp only
    split
    · exact hJ.within _ _
    · split
      · exact hJ.within _ _
      · exact ⟨true, rfl⟩

theorem checkedLists_names {c : ECls} {n : String × ECls} (h : n ∈ checkedLists c) : n.1 = "_properties" ∨ n.1 = "_conditions" ∨ n.1 = "_parameters" := by
  cases c <;> simp [checkedLists] at h
  all_goals rcases h with rfl | rfl | rfl <;> simp

theorem guard_warning {J : Judge} (hJ : Total J) {m : Mem} {obj u : V} (hl : Listed m obj) (hu : Reachable m false obj u) : guard J .warning m u = .ok () := by
  have hv : ∀ {r : Except PyErr Bool}, (∃ b, r = .ok b) → verdict .warning r = .ok () := by
    rintro _ ⟨b, rfl⟩
    cases b <;> rfl
  cases u with
  | obj t ns vs =>
    simp only [guard]
    split
    · unfold attrGuard
      split
      · split
        · rfl
        · exact hv (hJ.within _ _)
      · rfl
    · rfl
  | ref o =>
    simp only [guard]
    cases hx : m[o]? with
    | none => rfl
    | some x =>
      simp only
      rw [runAll_ok]
      intro r hr
      rcases List.mem_append.1 hr with hr | hr
      · unfold listGuards at hr
        split at hr
        · rename_i T hT
          simp only [List.mem_flatMap, List.mem_map] at hr
          obtain ⟨n, hn, a, ha, rfl⟩ := hr
          refine hv (validate_total hJ (fun t b hm => ?_))
          obtain ⟨l, e, hm⟩ := items_mem.1 hm
          exact hl T n.1 l (templateOf_reach hu hT) (checkedLists_names hn) e t b hm
        · simp at hr
      · unfold quantityGuards at hr
        split at hr
        · rcases List.mem_append.1 hr with hr | hr
          · obtain ⟨n, hn, rfl⟩ := List.mem_map.1 hr
            split
            · rfl
            · exact hv (hJ.fraction _)
          · simp only [List.mem_cons, List.not_mem_nil, or_false] at hr
            subst hr
            split
            · rfl
            · unfold amountGuard
              obtain ⟨b, hb⟩ := hJ.amount (field m (.ref o) "_absolute_quantity")
              rw [hb]
        · simp at hr
  | _ => rfl

theorem field_same {m m1 : Mem} (h : SameGraph m m1) (v : V) (n : String) : field m1 v n = field m v n := by
  unfold field
  split
  · rename_i o
    have := sameGraph_get h o
    cases h1 : m1[o]? <;> cases h2 : m[o]? <;> simp [h1, h2] at this ⊢
    rw [this.2]
  · rfl

/-- C69: at level WARNING, the default, every graph is read back as in C43, whatever its values are, if its object templates list no links. -/
theorem C69_warning_partial (env : Env) (J : Judge) (m : Mem) (obj : V) (scope : String) (gen : Nat → String) (drawn : Nat) (hJ : Fair env.lower J) (hT : Total J)
    (h : Writable env m obj) (hsc : scope ≠ "type") (hf : Fresh env.lower m obj scope gen drawn) (hl : Listed m obj) :
    ∃ n m1 t M, (∀ n' ≥ n, dumps env scope gen n' m drawn obj = some (.ok (t, M))) ∧ Numbered scope m m1 obj ∧ Extends m1 M ∧
      ∀ M0 : Mem, ∃ w m' φ, loadsAt J .warning env M0 t = .ok (w, m') ∧ Iso m1 obj m' w φ ∧ ∀ o, Reachable m1 false obj (.ref o) → M0.length ≤ φ o := by
  obtain ⟨n, m1, t, M, h1, h2, h3, h4⟩ := trip_at scope gen drawn hJ h hsc hf
  refine ⟨n, m1, t, M, h1, h2, h3, fun M0 => ?_⟩
  obtain ⟨w, m', φ, j1, j2, j3⟩ := h4 M0
  have hl1 : Listed m1 obj := by
    intro T k l hr hk hfl
    exact hl T k l ((reachable_congr h2.same).1 hr) hk (by rw [← field_same h2.same]; exact hfl)
  exact ⟨w, m', φ, (j3 .warning).1 (fun u hu => guard_warning hT hl1 hu), j1, j2⟩

/-- C69: an ingredient with an absolute quantity can be written, but what was written can never be read at level FATAL, whatever the quantity is. -/
theorem C69_absolute_fails (env : Env) (J : Judge) (m : Mem) (obj : V) (scope : String) (gen : Nat → String) (drawn : Nat) (hJ : Fair env.lower J)
    (h : Writable env m obj) (hsc : scope ≠ "type") (hf : Fresh env.lower m obj scope gen drawn) (o : Nat) (x : EObj) (ho : Reachable m false obj (.ref o))
    (hx : m[o]? = some x) (hc : x.cls = .ingredientSpec ∨ x.cls = .ingredientRun) (q : V) (hq : Dict.get? x.fields "_absolute_quantity" = some q) (hn : q ≠ .none) :
    ∃ n t M, (∀ n' ≥ n, dumps env scope gen n' m drawn obj = some (.ok (t, M))) ∧ ∀ M0 : Mem, ∃ e, loadsAt J .fatal env M0 t = .error e := by
  obtain ⟨n, m1, t, M, h1, h2, h3, h4⟩ := C69_fatal_partial env J m obj scope gen drawn hJ h hsc hf
  refine ⟨n, t, M, h1, fun M0 => ?_⟩
  obtain ⟨_, _, _, _, _, _, h5⟩ := h4 M0
  refine h5 ⟨.ref o, (reachable_congr h2.same).2 ho, fun hs => ?_⟩
  have hg := sameGraph_get h2.same o
  rw [hx] at hg
  cases hy : m1[o]? with
  | none => rw [hy] at hg; cases hg
  | some y =>
    simp only [hy, Option.map_some, Option.some.injEq, Prod.mk.injEq] at hg
    have e := hs.amount o y rfl hy (by rw [hg.1]; exact hc)
    rw [field_same h2.same] at e
    unfold field at e
    simp only [hx, hq, Option.getD_some] at e
    exact hn e

/-! ## A judge -/

/-- a number of a value object -/
def numAt (v : V) (typ n : String) : Option Rat := match v with
  | .obj t ns vs => if t = typ then num (attr ns vs n) else none
  | _ => none

/-- is the nominal value within the bounds? Units are not looked at. -/
def inside (b v : V) : Bool := match numAt b "real_bounds" "lower_bound", numAt b "real_bounds" "upper_bound", numAt v "nominal_real" "nominal" with
  | some lo, some hi, some x => decide (lo ≤ x ∧ x ≤ hi)
  | _, _, _ => false

/-- does the entity carry the id? -/
def carriesB (lower : String → String) (m : Mem) (o : Nat) (s i : String) : Bool := match m[o]? with
  | some x => x.uids.any (fun e => decide (lower e.1 = s ∧ e.2 = i))
  | none => false

/-- a judge who knows real numbers -/
def simple (lower : String → String) : Judge where
  within b v := .ok (inside b v)
  fraction v := .ok (match numAt v "nominal_real" "nominal" with
    | some x => decide (0 ≤ x ∧ x ≤ 1)
    | none => false)
  amount _ := .ok false
  same m v w := match v, w with
    | .ref o, .ref p => decide (o = p)
    | .link s i, .link t j => decide (s = t ∧ i = j)
    | .link s i, .ref o => carriesB lower m o (lower s) i
    | .ref o, .link s i => carriesB lower m o (lower s) i
    | _, _ => false

theorem carriesB_iff {lower : String → String} {m : Mem} {o : Nat} {s i : String} : carriesB lower m o s i = true ↔ Carries lower m o s i := by
  unfold carriesB Carries
  cases m[o]? with
  | none => simp
  | some x =>
    simp only [List.any_eq_true, decide_eq_true_eq, Option.some.injEq, exists_eq_left']
    constructor
    · rintro ⟨⟨a, b⟩, h1, h2, rfl⟩
      exact ⟨a, h1, h2⟩
    · rintro ⟨a, h1, h2⟩
      exact ⟨(a, i), h1, h2, rfl⟩

theorem alike_num {L : Nat → V → Prop} {G : String → String → V → Prop} (hL : ∀ o w, L o w → num w = none) (hG : ∀ s i w, G s i w → num w = none) {v w : V}
    (h : alike L G v w) : num v = num w := by
  cases v <;> simp only [alike] at h
  case ref o => rw [hL _ _ h]; rfl
  case link s i => rw [hG _ _ _ h]; rfl
  case bool b => rw [h]; cases b <;> rfl
  case int i => rw [h]; rfl
  case float q => rw [h]; rfl
  case list l => obtain ⟨_, rfl, _⟩ := h; rfl
  case tuple l => obtain ⟨_, rfl, _⟩ := h; rfl
  case dict ks vs => obtain ⟨_, _, _, rfl, _⟩ := h; rfl
  case obj t ns vs => obtain ⟨_, rfl, _⟩ := h; rfl
  all_goals subst h; rfl

theorem alikes_attr {L : Nat → V → Prop} {G : String → String → V → Prop} {ns : List String} {vs ws : List V} (n : String) (h : alikes L G vs ws) :
    alike L G (attr ns vs n) (attr ns ws n) := by
  unfold attr
  induction ns generalizing vs ws with
  | nil => simp [Dict.get?, alike]
  | cons a ns ih =>
    cases vs with
    | nil =>
      simp only [alikes] at h
      subst h
      simp [Dict.get?, alike]
    | cons v vs =>
      obtain ⟨w, ws, rfl, h1, h2⟩ := h
      simp only [List.zip_cons_cons, Dict.get?]
      split
      · exact h1
      · exact ih h2

theorem alike_numAt {v w : V} (h : Alike v w) (t n : String) : numAt v t n = numAt w t n := by
  have key : ∀ {v w}, Alike v w → num v = num w := fun h =>
    alike_num (by rintro o w ⟨q, rfl⟩; rfl) (by rintro s i w rfl; rfl) h
  cases v <;> simp only [Alike, alike] at h
  case obj t' ns vs =>
    obtain ⟨ws, rfl, h⟩ := h
    simp only [numAt]
    rw [key (alikes_attr n h)]
  case list l => obtain ⟨_, rfl, _⟩ := h; rfl
  case tuple l => obtain ⟨_, rfl, _⟩ := h; rfl
  case dict ks vs => obtain ⟨_, _, _, rfl, _⟩ := h; rfl
  case ref o => obtain ⟨_, rfl⟩ := h; rfl
  case none => subst h; rfl
  case str s => subst h; rfl
  case link s i => rw [h]
  all_goals cases w <;> simp [num] at h <;> rfl

theorem simple_fair (lower : String → String) : Fair lower (simple lower) := by
  refine ⟨?_, ?_, ?_, ?_, ?_, ?_, ?_, ?_, ?_⟩
  · intro b b' v v' h1 h2
    simp only [simple, inside, alike_numAt h1, alike_numAt h2]
  · intro v v' h
    simp only [simple, alike_numAt h]
  · intro v v' h; rfl
  · intro m o; simp [simple]
  · intro m o p s i h
    simp only [simple, decide_eq_true_eq] at h
    rw [h]; exact id
  · intro m s i o h; exact carriesB_iff.1 h
  · intro m s i o h; exact carriesB_iff.1 h
  · intro m m' s i t j; rfl
  · intro m v w h
    cases v <;> cases w <;> simp [simple, pointerLike] at h ⊢

theorem simple_total (lower : String → String) : Total (simple lower) := ⟨fun _ _ => ⟨_, rfl⟩, fun _ => ⟨_, rfl⟩, fun _ => ⟨_, rfl⟩⟩

end Verif.Checked
