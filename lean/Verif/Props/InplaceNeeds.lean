import Verif.Props.InplaceLinks
/-!
# C61: when entities can be replaced by links in place

C61_entity_partial and C61_value_partial say what happens if the entities have ids as the scope asks. Here: only then.
-/

namespace Verif.Inplace
open Verif.Py Verif.Value Verif.Schema Verif.Json Verif.Substitute

section
variable {env : Env} {same : Mem → Nat → Nat → Bool} {scope : Option String} {fallback : Bool} {m : Mem} {top : V}

theorem able_of_toLink {lower : String → String} {x : EObj} {l : V} (h : toLink lower scope fallback x = .ok l) : Linkable lower scope fallback x := by
  unfold toLink at h
  split at h
  · cases h
  · rename_i first i rest e
    refine ⟨by simp [e], ?_⟩
    split at h
    · rename_i p hp
      cases scope with
      | none => exact .inl rfl
      | some s =>
        by_cases hf : fallback = true
        · exact .inr (.inl hf)
        · refine .inr (.inr ⟨s, rfl, p, List.mem_of_find?_eq_some hp, ?_⟩)
          have := List.find?_some hp
          simpa [linkScope, hf] using this
    · cases h

/-- what has been met can be linked to -/
structure Met (lower : String → String) (scope : Option String) (fallback : Bool) (m : Mem) (top : V) (st : SubSt) : Prop where
  sk : st.mem.map skel = m.map skel
  vis : ∀ p w, Dict.get? st.visited (.ref p) = some w → Able lower scope fallback m top p
  top : ∀ o, top = .ref o → ∃ w, Dict.get? st.visited (.ref o) = some w

theorem Met.remember {lower : String → String} {st : SubSt} (h : Met lower scope fallback m top st) {t w : V} {k : V} (hk : t.hash = .key k)
    (ha : ∀ p, k = .ref p → Able lower scope fallback m top p) : Met lower scope fallback m top (remember t w st) := by
  refine ⟨by rw [remember_mem]; exact h.sk, fun p u hu => ?_, fun o ho => ?_⟩
  · rcases remember_get hk hu with ⟨e, _⟩ | ⟨_, hu⟩
    · exact ha p e.symm
    · exact h.vis p u hu
  · obtain ⟨u, hu⟩ := h.top o ho
    simp only [Substitute.remember, hk]
    rw [Dict.get?_set]
    split
    · exact ⟨_, rfl⟩
    · exact ⟨u, hu⟩

variable {expand : Nat → SubSt → Except PyErr SubSt}

theorem leaf_met {st st' : SubSt} (h : Met env.lower scope fallback m top st) {t w : V} (ht : pointerLike t)
    (e : leaf (linkRepl env.lower scope fallback top) expand t st = .ok (w, st')) :
    st'.mem = st.mem ∧ Met env.lower scope fallback m top st' ∧ ∀ p, t = .ref p → Able env.lower scope fallback m top p := by
  unfold leaf at e
  cases hrec : recall t st with
  | some u =>
    rw [hrec] at e
    simp only [Except.ok.injEq, Prod.mk.injEq] at e
    obtain ⟨rfl, rfl⟩ := e
    refine ⟨rfl, h, fun p hp => ?_⟩
    subst hp
    exact h.vis p _ (by simpa [recall, V.hash, V.norm] using hrec)
  | none =>
    rw [hrec] at e
    simp only at e
    cases t <;> simp [pointerLike] at ht
    · rename_i s i
      simp only [linkRepl, Option.getD_none, into, Except.ok.injEq, Prod.mk.injEq] at e
      obtain ⟨_, rfl⟩ := e
      exact ⟨remember_mem _ _ _, h.remember (k := (V.link s i).norm) (hash_pointer trivial) (fun p hp => by simp [V.norm] at hp), fun p hp => by cases hp⟩
    · rename_i p
      have hne : V.ref p ≠ top := by
        intro e'
        obtain ⟨u, hu⟩ := h.top p e'.symm
        rw [recall, hash_pointer (t := .ref p) trivial] at hrec
        simp only [V.norm] at hrec
        rw [hu] at hrec
        cases hrec
      simp only [linkRepl, hne, if_false] at e
      cases hx : st.mem[p]? with
      | none => simp [hx] at e
      | some x' =>
        cases hl : toLink env.lower scope fallback x' with
        | error e' => simp [hx, hl] at e
        | ok l =>
          obtain ⟨x, hx0, hsk⟩ := skel_at (m := st.mem) (m' := m) h.sk.symm hx
          have hu : x.uids = x'.uids := congrArg (fun s => s.2.1) hsk
          have hab : Able env.lower scope fallback m top p := .inr ⟨x, hx0, able_of_toLink (by rw [toLink_uids hu]; exact hl)⟩
          simp only [hx, hl, Option.getD_some] at e
          have hlp : ∃ s i, l = .link s i := by
            unfold toLink at hl
            split at hl
            · cases hl
            · split at hl
              · cases hl; exact ⟨_, _, rfl⟩
              · cases hl
          obtain ⟨s, i, rfl⟩ := hlp
          simp only [into, Except.ok.injEq, Prod.mk.injEq] at e
          obtain ⟨_, rfl⟩ := e
          exact ⟨remember_mem _ _ _, h.remember (k := .ref p) (hash_pointer (t := .ref p) trivial) (fun q hq => by cases hq; exact hab), fun q hq => by cases hq; exact hab⟩

mutual
/-- if nothing is raised then all entities that were met can be linked to -/
theorem subI_met (v : V) (st st' : SubSt) (w : V) (hp : Plain v) (h : Met env.lower scope fallback m top st)
    (e : subI env (linkRepl env.lower scope fallback top) expand v st = .ok (w, st')) :
    st'.mem = st.mem ∧ Met env.lower scope fallback m top st' ∧ ∀ p, V.ref p ∈ v.subs → Able env.lower scope fallback m top p := by
  cases v with
  | list l =>
    simp only [Plain] at hp
    simp only [subI] at e
    split at e
    · cases e
    · rename_i l' st1 he
      cases e
      obtain ⟨h1, h2, h3⟩ := subIs_met l st st' l' hp h he
      exact ⟨h1, h2, fun p hp => h3 p (by simpa [V.subs] using hp)⟩
  | tuple l => exact absurd hp (by simp [Plain])
  | dict ks vs =>
    simp only [Plain] at hp
    obtain ⟨⟨names, rfl, hn, hl⟩, hp⟩ := hp
    have hks : ∀ ns : List String, ∀ st, subIs env (linkRepl env.lower scope fallback top) expand (ns.map .str) st = .ok (ns.map .str, st) := by
      intro ns
      induction ns with
      | nil => intro st; rfl
      | cons n ns ih => intro st; simp [subIs, subI, ih]
    have hsub : ∀ (ns : List String) p, V.ref p ∉ subss (ns.map V.str) := by
      intro ns p
      induction ns with
      | nil => simp [subss]
      | cons n ns ih => simp [subss, V.subs, ih]
    simp only [subI, hks] at e
    split at e
    · cases e
    · rename_i vs' st1 he
      cases e
      obtain ⟨h1, h2, h3⟩ := subIs_met vs st st' vs' hp h he
      exact ⟨h1, h2, fun p hp => h3 p (by simpa [V.subs, hsub] using hp)⟩
  | obj t ns vs =>
    simp only [Plain] at hp
    simp only [subI] at e
    split at e
    · cases e
    · rename_i vs' st1 he
      split at e
      · cases e
      · cases e
        obtain ⟨h1, h2, h3⟩ := subIs_met vs st st' vs' hp.2 h he
        exact ⟨h1, h2, fun p hp => h3 p (by simpa [V.subs] using hp)⟩
  | link s i =>
    simp only [subI] at e
    obtain ⟨h1, h2, _⟩ := leaf_met h (t := .link s i) trivial e
    exact ⟨h1, h2, fun p hp => by simp [V.subs] at hp⟩
  | ref p =>
    simp only [subI] at e
    obtain ⟨h1, h2, h3⟩ := leaf_met h (t := .ref p) trivial e
    exact ⟨h1, h2, fun q hq => by simp only [V.subs, List.mem_singleton] at hq; exact h3 q hq.symm⟩
  | none => cases e; exact ⟨rfl, h, fun p hp => by simp [V.subs] at hp⟩
  | bool b => cases e; exact ⟨rfl, h, fun p hp => by simp [V.subs] at hp⟩
  | int i => cases e; exact ⟨rfl, h, fun p hp => by simp [V.subs] at hp⟩
  | float q => cases e; exact ⟨rfl, h, fun p hp => by simp [V.subs] at hp⟩
  | str s => cases e; exact ⟨rfl, h, fun p hp => by simp [V.subs] at hp⟩
termination_by structural v
theorem subIs_met (l : List V) (st st' : SubSt) (l' : List V) (hp : Plains l) (h : Met env.lower scope fallback m top st)
    (e : subIs env (linkRepl env.lower scope fallback top) expand l st = .ok (l', st')) :
    st'.mem = st.mem ∧ Met env.lower scope fallback m top st' ∧ ∀ p, V.ref p ∈ subss l → Able env.lower scope fallback m top p := by
  cases l with
  | nil => cases e; exact ⟨rfl, h, fun p hp => by simp [subss] at hp⟩
  | cons v vs =>
    simp only [Plains] at hp
    simp only [subIs] at e
    split at e
    · cases e
    · rename_i w st1 he1
      split at e
      · cases e
      · rename_i ws st2 he2
        cases e
        obtain ⟨m1, i1, a1⟩ := subI_met v st st1 w hp.1 h he1
        obtain ⟨m2, i2, a2⟩ := subIs_met vs st1 st' ws hp.2 i1 he2
        refine ⟨by rw [m2, m1], i2, fun p hp => ?_⟩
        simp only [subss, List.mem_append] at hp
        exact hp.elim (a1 p) (a2 p)
termination_by structural l
end

theorem unlink_skel {mem mem' : Mem} {o : Nat} {c : ECls} {a : String} (e : unlink same mem o c a = .ok mem') : mem'.map skel = mem.map skel := by
  unfold unlink at e
  repeat' split at e
  all_goals first
    | cases e; rfl
    | cases e; exact setField_skel _ _ _ _
    | cases e

theorem setAttr_skel {mem mem' : Mem} {o : Nat} {c : ECls} {a : String} {v : V} (e : setAttr env same mem o c a v = .ok mem') : mem'.map skel = mem.map skel := by
  unfold setAttr at e
  split at e
  · cases e
  · split at e
    · cases e
    · rename_i w _ _ m1 hu
      cases e
      have h1 := unlink_skel hu
      have h2 : (keepNames m1 o c a).map skel = m1.map skel := by
        unfold keepNames
        repeat' split
        all_goals first | rfl | simp only [setField_skel]
      have h3 : ∀ m2 : Mem, (tell m2 o c a w).map skel = m2.map skel := by
        intro m2
        unfold tell
        repeat' split
        all_goals first | rfl | simp only [setField_skel]
      rw [h3, setField_skel, h2, h1]

theorem setFields_met {o : Nat} {c : ECls} : ∀ (fs : List (String × V)) (st st' : SubSt), (∀ f ∈ fs, Plain f.2) → Met env.lower scope fallback m top st →
    setFields env same (linkRepl env.lower scope fallback top) expand o c fs st = .ok st' → ∀ f ∈ fs, ∀ p, V.ref p ∈ f.2.subs → Able env.lower scope fallback m top p := by
  intro fs
  induction fs with
  | nil => intro _ _ _ _ _ f hf; cases hf
  | cons f fs ih =>
    obtain ⟨a, v⟩ := f
    intro st st' hp h e g hg
    simp only [setFields] at e
    split at e
    · cases e
    · rename_i w st1 he
      obtain ⟨m1, i1, a1⟩ := subI_met v st st1 w (hp (a, v) (by simp)) h he
      have hrest : ∀ g ∈ fs, ∀ p, V.ref p ∈ g.2.subs → Able env.lower scope fallback m top p := by
        split at e
        · exact ih st1 st' (fun g hg => hp g (by simp [hg])) i1 e
        · split at e
          · cases e
          · rename_i mem' hs
            exact ih { st1 with mem := mem' } st' (fun g hg => hp g (by simp [hg])) ⟨(setAttr_skel hs).trans i1.sk, i1.vis, i1.top⟩ e
      rcases List.mem_cons.1 hg with rfl | hg
      · exact a1
      · exact hrest g hg

end

/-- **C61 (only then, values)**: the entities in a value are replaced by links exactly if each has an id as the scope asks. -/
theorem C61_value_ids {env : Env} (same : Mem → Nat → Nat → Bool) {scope : Option String} {fallback : Bool} {m : Mem} {v : V} (hv : ∀ o, v ≠ .ref o) (hp : Plain v)
    (ho : okV env m v) : (∃ r, linksInplace env same scope fallback m v = .ok r) ↔ ∀ p, V.ref p ∈ v.subs → ∃ y, m[p]? = some y ∧ Linkable env.lower scope fallback y := by
  constructor
  · rintro ⟨⟨w, m'⟩, h⟩
    unfold linksInplace substituteI at h
    split at h
    · cases h
    · rename_i w' st' e
      obtain ⟨_, _, h3⟩ := subI_met v _ st' w' hp ⟨rfl, fun p w hk => by simp [Dict.get?] at hk, fun o e => absurd e (hv o)⟩ e
      exact fun p hp => (h3 p hp).resolve_left fun e => hv p e.symm
  · intro ha
    obtain ⟨f, h, _⟩ := C61_value_partial same hv hp ho ha
    exact ⟨_, h⟩

/-- everything needed but the ids -/
structure LinkReady' (env : Env) (same : Mem → Nat → Nat → Bool) (m : Mem) (o : Nat) : Prop where
  typed : WellTyped env m
  there : o < m.length
  plain : ∀ a u, a ∉ backNames → attrAt m o a = some u → Plain u
  two : TwoWay m
  alone : ∀ mem, mem.map skel = m.map skel → (∀ q a, q ≠ o → a ∉ backNames → attrAt mem q a = attrAt m q a) →
    ∀ q n p, q ≠ o → Points m n q p → Points m n o p → same mem q o = false

/-- **C61 (only then, entities)**: the entities in the attributes of an entity are replaced by links exactly if each other one has an id as the scope asks. -/
theorem C61_entity_ids {env : Env} {same : Mem → Nat → Nat → Bool} {scope : Option String} {fallback : Bool} {m : Mem} {o : Nat} (h : LinkReady' env same m o) :
    (∃ r, linksInplace env same scope fallback m (.ref o) = .ok r) ↔
      ∀ a u p, a ∉ backNames → attrAt m o a = some u → V.ref p ∈ u.subs → p ≠ o → ∃ y, m[p]? = some y ∧ Linkable env.lower scope fallback y := by
  constructor
  · rintro ⟨⟨w, m'⟩, e⟩ a u p ha hu hp hne
    obtain ⟨x, hx⟩ : ∃ x, m[o]? = some x := ⟨m[o]'h.there, List.getElem?_eq_getElem h.there⟩
    have hnames := typed_names h.typed hx
    have hnd : (x.fields.map Prod.fst).Nodup := by rw [hnames]; exact names_nodup _
    have hfwd : ∀ f ∈ x.fields, f.1 ∉ skip x.cls → f.1 ∉ backNames := fun f hf hs hb =>
      hs (names_skip _ _ (by rw [← hnames]; exact List.mem_map.2 ⟨f, hf, rfl⟩) hb)
    have hget : ∀ f ∈ x.fields, attrAt m o f.1 = some f.2 := fun f hf => by simp only [attrAt, hx]; exact Dict.get?_of_mem hnd hf
    have hmem : (a, u) ∈ x.fields := by simp only [attrAt, hx] at hu; exact Dict.mem_of_get? hu
    -- what is shown is plain
    have hplain : ∀ f ∈ shown m x, Plain f.2 := by
      intro f hf
      obtain ⟨g, hg, rfl⟩ := List.mem_map.1 hf
      obtain ⟨hg, hs⟩ := List.mem_filter.1 hg
      by_cases hn : isName x.cls g.1
      · have := getattr_names h.typed hx hn.1 (hget g hg)
        rcases hn.2 with e | e
        · exact plain_name (this.1 e)
        · exact plain_labels (this.2 e)
      · have : getattr m x g = g.2 := by
          unfold getattr
          rw [if_neg (show ¬ (x.cls = .ingredientRun ∧ _) from hn)]
        rw [this]
        exact h.plain g.1 g.2 (hfwd g hg (by simpa using hs)) (hget g hg)
    have hrec : recall (V.ref o) { visited := [], mem := m } = none := by simp [recall, V.hash, Dict.get?]
    have hM : (remember (.ref o) (.ref o) { visited := [], mem := m }).mem = m := remember_mem _ _ _
    simp only [linksInplace, substituteI, subI, leaf, hrec, linkRepl, if_true, Option.getD_none, into, expandI, hM, hx] at e
    split at e
    · cases e
    · rename_i w' st' he
      split at he
      · cases he
      · rename_i st2 hs
        have hA := setFields_met (m := m) (top := .ref o) (shown m x) _ st2 hplain ⟨by rw [hM], fun p w hk => by
          rcases remember_get (hash_pointer (t := .ref o) trivial) hk with ⟨e, _⟩ | ⟨_, hk⟩
          · exact .inl e
          · simp [Dict.get?] at hk, fun o' ho' => by
          cases ho'
          exact ⟨.ref o, by simp [remember, V.hash, V.norm, Dict.set, Dict.get?]⟩⟩ hs
        by_cases hn : isName x.cls a
        · have hf := fits_of_typed h.typed (c := x.cls) (by simp [clsAt, hx]) hu ha
          rcases hn.2 with rfl | rfl
          · exact absurd hp (name_subs (hf.name hn.1 rfl) p)
          · exact absurd hp (labels_subs (hf.labels hn.1 rfl) p)
        · have hg : getattr m x (a, u) = u := by
            unfold getattr
            rw [if_neg (show ¬ (x.cls = .ingredientRun ∧ _) from hn)]
          have := hA (a, u) (List.mem_map.2 ⟨(a, u), List.mem_filter.2 ⟨hmem, by simpa using fun hs => ha (skip_back _ _ hs)⟩, by rw [hg]⟩) p hp
          exact this.resolve_left fun e => hne (by cases e; rfl)
  · intro ha
    obtain ⟨x, x', m', f, _, hrun, _⟩ := C61_entity_partial (scope := scope) (fallback := fallback) ⟨h.typed, h.there, h.plain, ha, h.two, h.alone⟩
    exact ⟨_, hrun⟩

end Verif.Inplace
