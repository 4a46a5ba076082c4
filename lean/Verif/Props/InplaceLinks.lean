import Verif.Props.InplaceConv
/-!
# C61: `substitute_links(..., inplace=True)`
-/

set_option linter.unusedSimpArgs false
set_option linter.unusedVariables false
set_option linter.unusedSectionVars false

namespace Verif.Inplace
open Verif.Py Verif.Value Verif.Schema Verif.Json Verif.Substitute

/-! ## Values -/

section
variable {env : Env} {scope : Option String} {fallback : Bool} {m : Mem} {top : V} {expand : Nat → SubSt → Except PyErr SubSt}

/-- what becomes of an entity -/
def toward (lower : String → String) (scope : Option String) (fallback : Bool) (m : Mem) (top : V) (p : Nat) : V :=
  if V.ref p = top then .ref p else linkOf lower scope fallback m p

/-- what has been remembered -/
structure LinkInv (lower : String → String) (scope : Option String) (fallback : Bool) (m : Mem) (top : V) (st : SubSt) : Prop where
  sk : st.mem.map skel = m.map skel
  vis : ∀ k w, Dict.get? st.visited k = some w → ∃ t, pointerLike t ∧ t.norm = k ∧ w = put (toward lower scope fallback m top) .link t
  top : ∀ o, top = .ref o → Dict.get? st.visited (V.ref o).norm = some (.ref o)

/-- an entity that has an id to link to -/
def Able (lower : String → String) (scope : Option String) (fallback : Bool) (m : Mem) (top : V) (p : Nat) : Prop :=
  V.ref p = top ∨ ∃ x, m[p]? = some x ∧ Linkable lower scope fallback x

theorem toLink_uids {lower : String → String} {x y : EObj} (h : x.uids = y.uids) : toLink lower scope fallback x = toLink lower scope fallback y := by
  unfold toLink linkScope
  rw [h]

theorem toward_pointer {lower : String → String} {p : Nat} (h : Able lower scope fallback m top p) : pointerLike (toward lower scope fallback m top p) := by
  unfold toward
  split
  · trivial
  · rename_i hne
    obtain ⟨x, hx, hl⟩ := h.resolve_left hne
    obtain ⟨s, i, _, e, _⟩ := linkOf_ok hx hl
    rw [e]
    trivial

theorem LinkInv.remember {lower : String → String} {st : SubSt} (h : LinkInv lower scope fallback m top st) {t : V} (ht : pointerLike t) (hn : recall t st = none) :
    LinkInv lower scope fallback m top (remember t (put (toward lower scope fallback m top) .link t) st) := by
  refine ⟨by rw [remember_mem]; exact h.sk, fun k w hk => ?_, fun o ho => ?_⟩
  · rcases remember_get (hash_pointer ht) hk with ⟨rfl, rfl⟩ | ⟨_, hk⟩
    · exact ⟨t, ht, rfl, rfl⟩
    · exact h.vis k w hk
  · have := h.top o ho
    rw [recall, hash_pointer ht] at hn
    simp only at hn
    unfold Substitute.remember
    rw [hash_pointer ht]
    simp only
    rw [Dict.get?_set]
    split
    · rename_i e
      rw [e, this] at hn
      cases hn
    · exact this

/-- an entity or a link -/
theorem leaf_links {st : SubSt} (h : LinkInv env.lower scope fallback m top st) {t : V} (ht : pointerLike t)
    (ha : ∀ p, t = .ref p → Able env.lower scope fallback m top p) :
    ∃ st', leaf (linkRepl env.lower scope fallback top) expand t st = .ok (put (toward env.lower scope fallback m top) .link t, st') ∧ st'.mem = st.mem ∧
      LinkInv env.lower scope fallback m top st' := by
  unfold leaf
  cases hrec : recall t st with
  | some w =>
    simp only
    rw [recall, hash_pointer ht] at hrec
    obtain ⟨t', h1, h2, h3⟩ := h.vis _ _ hrec
    have e := norm_inj h1 ht h2
    subst e
    subst h3
    exact ⟨st, rfl, rfl, h⟩
  | none =>
    simp only
    have hi := h.remember ht hrec
    cases t <;> simp [pointerLike] at ht
    · rename_i s i
      simp only [linkRepl, Option.getD_none, into]
      exact ⟨_, rfl, remember_mem _ _ _, hi⟩
    · rename_i p
      have hne : V.ref p ≠ top := by
        intro e
        have := h.top p e.symm
        rw [recall, hash_pointer (t := .ref p) trivial] at hrec
        simp only at hrec
        rw [this] at hrec
        cases hrec
      obtain ⟨x, hx, hl⟩ := (ha p rfl).resolve_left hne
      obtain ⟨s, i, e1, e2, _⟩ := linkOf_ok hx hl
      obtain ⟨x', hx', hsk⟩ := skel_at h.sk hx
      have hput : put (toward env.lower scope fallback m top) .link (.ref p) = .link s i := by simp only [put, toward, hne, if_false, e2]
      have hu : x'.uids = x.uids := congrArg (fun s => s.2.1) hsk
      rw [hput] at hi ⊢
      simp only [linkRepl, hne, if_false, hx', toLink_uids hu, e1, Option.getD_some, into]
      exact ⟨_, rfl, remember_mem _ _ _, hi⟩

mutual
theorem subI_links (v : V) (st : SubSt) (hp : Plain v) (ho : okV env st.mem (put (toward env.lower scope fallback m top) .link v))
    (ha : ∀ p, V.ref p ∈ v.subs → Able env.lower scope fallback m top p) (h : LinkInv env.lower scope fallback m top st) :
    ∃ st', subI env (linkRepl env.lower scope fallback top) expand v st = .ok (put (toward env.lower scope fallback m top) .link v, st') ∧ st'.mem = st.mem ∧
      LinkInv env.lower scope fallback m top st' := by
  cases v with
  | list l =>
    simp only [Plain] at hp
    simp only [put, okV] at ho
    obtain ⟨st', e, h1, h2⟩ := subIs_links l st hp ho (fun p hp => ha p (by simp [V.subs, hp])) h
    exact ⟨st', by simp only [subI, e, put], h1, h2⟩
  | tuple l => exact absurd hp (by simp [Plain])
  | dict ks vs =>
    simp only [Plain] at hp
    obtain ⟨⟨names, rfl, hn, hl⟩, hp⟩ := hp
    simp only [put, okV] at ho
    have hks : ∀ ns : List String, ∀ st, subIs env (linkRepl env.lower scope fallback top) expand (ns.map .str) st = .ok (ns.map .str, st) := by
      intro ns
      induction ns with
      | nil => intro st; rfl
      | cons n ns ih => intro st; simp [subIs, subI, ih]
    obtain ⟨st', e, h1, h2⟩ := subIs_links vs st hp ho (fun p hp => ha p (by simp [V.subs, hp])) h
    refine ⟨st', ?_, h1, h2⟩
    simp only [subI, hks, e, put]
    rw [setDict_values hn hl (by rw [hl, puts_eq, List.length_map])]
  | obj t ns vs =>
    simp only [Plain] at hp
    simp only [put, okV] at ho
    obtain ⟨st', e, h1, h2⟩ := subIs_links vs st hp.2 ho.2 (fun p hp => ha p (by simp [V.subs, hp])) h
    refine ⟨st', ?_, h1, h2⟩
    simp only [subI, e, put]
    rw [h1, setObj_ok hp.1.symm ho.1]
  | link s i =>
    obtain ⟨st', e, h1, h2⟩ := leaf_links (expand := expand) h (t := .link s i) trivial (fun p hp => by cases hp)
    exact ⟨st', by simp only [subI, e], h1, h2⟩
  | ref p =>
    obtain ⟨st', e, h1, h2⟩ := leaf_links (expand := expand) h (t := .ref p) trivial (fun q hq => by cases hq; exact ha p (by simp [V.subs]))
    exact ⟨st', by simp only [subI, e], h1, h2⟩
  | none => exact ⟨st, rfl, rfl, h⟩
  | bool b => exact ⟨st, rfl, rfl, h⟩
  | int i => exact ⟨st, rfl, rfl, h⟩
  | float q => exact ⟨st, rfl, rfl, h⟩
  | str s => exact ⟨st, rfl, rfl, h⟩
termination_by structural v
theorem subIs_links (l : List V) (st : SubSt) (hp : Plains l) (ho : okVs env st.mem (puts (toward env.lower scope fallback m top) .link l))
    (ha : ∀ p, V.ref p ∈ subss l → Able env.lower scope fallback m top p) (h : LinkInv env.lower scope fallback m top st) :
    ∃ st', subIs env (linkRepl env.lower scope fallback top) expand l st = .ok (puts (toward env.lower scope fallback m top) .link l, st') ∧ st'.mem = st.mem ∧
      LinkInv env.lower scope fallback m top st' := by
  cases l with
  | nil => exact ⟨st, rfl, rfl, h⟩
  | cons v vs =>
    simp only [Plains] at hp
    simp only [puts, okVs] at ho
    obtain ⟨st1, e1, m1, i1⟩ := subI_links v st hp.1 ho.1 (fun p hp => ha p (by simp only [subss, List.mem_append]; exact .inl hp)) h
    obtain ⟨st2, e2, m2, i2⟩ := subIs_links vs st1 hp.2 (by rw [m1]; exact ho.2) (fun p hp => ha p (by simp only [subss, List.mem_append]; exact .inr hp)) i1
    exact ⟨st2, by simp only [subIs, e1, e2, puts], by rw [m2, m1], i2⟩
termination_by structural l
end

/-- the replacements keep classes and bounds -/
theorem toward_compat {mem : Mem} (hg : Grows m mem) {v : V} (ha : ∀ p, V.ref p ∈ v.subs → Able env.lower scope fallback m top p) :
    Compat m mem (toward env.lower scope fallback m top) .link v := by
  refine ⟨fun p hp => ?_, fun s i _ => ⟨s, i, rfl⟩⟩
  unfold toward
  split
  · exact .inr ⟨p, rfl, fun x hx => hg p x hx⟩
  · rename_i hne
    obtain ⟨x, hx, hl⟩ := (ha p hp).resolve_left hne
    obtain ⟨s, i, _, e, _⟩ := linkOf_ok hx hl
    exact .inl ⟨s, i, e⟩

end

/-! ## The attributes of an entity -/

/-- the name and the labels of an ingredient run -/
def isName (c : ECls) (a : String) : Prop := c = .ingredientRun ∧ (a = "_name" ∨ a = "_labels")

instance (c : ECls) (a : String) : Decidable (isName c a) := by unfold isName; infer_instance

/-- everything needed to replace the entities in an entity by links -/
structure LinkReady (env : Env) (same : Mem → Nat → Nat → Bool) (scope : Option String) (fallback : Bool) (m : Mem) (o : Nat) : Prop where
  typed : WellTyped env m
  there : o < m.length
  plain : ∀ a u, a ∉ backNames → attrAt m o a = some u → Plain u
  able : ∀ a u p, a ∉ backNames → attrAt m o a = some u → V.ref p ∈ u.subs → p ≠ o → ∃ y, m[p]? = some y ∧ Linkable env.lower scope fallback y
  two : TwoWay m
  alone : ∀ mem, mem.map skel = m.map skel → (∀ q a, q ≠ o → a ∉ backNames → attrAt mem q a = attrAt m q a) →
    ∀ q n p, q ≠ o → Points m n q p → Points m n o p → same mem q o = false

section
variable {env : Env} {same : Mem → Nat → Nat → Bool} {scope : Option String} {fallback : Bool} {m : Mem} {o : Nat}

/-- where the loop is: `rest` are the attributes still to come -/
structure LoopL (env : Env) (scope : Option String) (fallback : Bool) (m : Mem) (o : Nat) (x : EObj) (rest : List String) (mem : Mem) : Prop where
  sk : mem.map skel = m.map skel
  other : ∀ q a, q ≠ o → a ∉ backNames → attrAt mem q a = attrAt m q a
  here : ∀ a, a ∉ backNames → attrAt mem o a =
    if isName x.cls a then (if "_spec" ∈ rest then attrAt m o a else (attrAt m o a).map (fun u => getattr m x (a, u)))
    else if a ∈ rest then attrAt m o a else (attrAt m o a).map (put (toward env.lower scope fallback m (.ref o)) .link)
  two : TwoWay mem

theorem removeFirst_ref (p : V → Bool) (o : Nat) (ho : p (.ref o) = true) : ∀ as : List Nat, (∀ a ∈ as, a ≠ o → p (.ref a) = false) → as.Nodup → o ∈ as →
    removeFirst p (as.map .ref) = .ok ((as.filter (fun a => decide (a ≠ o))).map .ref) := by
  intro as
  induction as with
  | nil => intro _ _ h; simp at h
  | cons a as ih =>
    intro h hn hm
    have hn' := List.nodup_cons.1 hn
    by_cases e : a = o
    · subst e
      have : as.filter (fun b => decide (b ≠ a)) = as := by
        rw [List.filter_eq_self]
        intro b hb
        simp only [decide_eq_true_eq]
        exact fun e => hn'.1 (e ▸ hb)
      simp only [List.map_cons, removeFirst, ho, if_true]
      rw [List.filter_cons_of_neg (by simp), this]
    · have h1 := h a (by simp) e
      have h2 := ih (fun b hb => h b (by simp [hb])) hn'.2 ((List.mem_cons.1 hm).resolve_left (Ne.symm e))
      simp [removeFirst, h1, h2, List.filter_cons, e]

theorem Grows.ofLoop (hW : WellTyped env m) {x : EObj} {rest : List String} {mem : Mem} (h : LoopL env scope fallback m o x rest mem) : Grows m mem := by
  refine grows_between h.sk (fun q b hb => ?_)
  by_cases e : q = o
  · subst e
    rw [h.here "_bounds" (by decide), if_neg (by simp [isName])]
    split
    · exact hb
    · rw [hb, Option.map_some, bounds_fixed hW hb]
  · rw [h.other q _ e (by decide), hb]

theorem twoWay_same {mem mem' : Mem} (hsk : mem'.map skel = mem.map skel) (hback : ∀ q n, n ∈ backNames → attrAt mem' q n = attrAt mem q n)
    (hthere : ∀ q c there back, clsAt mem q = some c → backRef c = some (there, back) → attrAt mem' q there = attrAt mem q there) (h : TwoWay mem) : TwoWay mem' := by
  intro b n v hn hv
  rw [hback b n hn] at hv
  refine (h b n v hn hv).congr (fun q => ?_)
  rw [points_attr, points_attr]
  constructor
  · rintro ⟨c, there, e1, e2, e3⟩
    rw [clsAt_skel hsk] at e1
    exact ⟨c, there, e1, e2, by rw [← hthere q c there n e1 e2]; exact e3⟩
  · rintro ⟨c, there, e1, e2, e3⟩
    exact ⟨c, there, by rw [clsAt_skel hsk]; exact e1, e2, by rw [hthere q c there n e1 e2]; exact e3⟩

theorem attr_exists (hW : WellTyped env m) {mem : Mem} (hsk : mem.map skel = m.map skel) {p : Nat} {c : ECls} (hc : clsAt m p = some c) {n : String}
    (hn : n ∈ (eargs c).map EArg.attr ++ (ownFields c).map Prod.fst) : ∃ v, attrAt mem p n = some v := by
  cases hx : m[p]? with
  | none => simp [clsAt, hx] at hc
  | some x =>
    have hcx : x.cls = c := by simpa [clsAt, hx] using hc
    obtain ⟨z, hz, hsk'⟩ := skel_at hsk hx
    have e2 : z.fields.map Prod.fst = x.fields.map Prod.fst := congrArg (fun s => s.2.2) hsk'
    rw [← hcx, ← typed_names hW hx, ← e2] at hn
    have : Dict.get? z.fields n ≠ none := by
      intro h
      obtain ⟨f, hf, e⟩ := List.mem_map.1 hn
      have : ∀ fs : List (String × V), f ∈ fs → f.1 = n → Dict.get? fs n ≠ none := by
        intro fs
        induction fs with
        | nil => intro h; simp at h
        | cons g fs ih =>
          intro h e
          simp only [Dict.get?]
          split
          · simp
          · rename_i hne
            rcases List.mem_cons.1 h with rfl | h
            · exact absurd e hne
            · exact ih h e
      exact this _ hf e h
    cases hg : Dict.get? z.fields n with
    | none => exact absurd hg this
    | some v => exact ⟨v, by simp only [attrAt, hz, hg]⟩

/-- a target that changes is an entity, and is replaced by a link -/
theorem target_linked {cs : List ECls} {u : V} (h : convTarget m cs u = .ok u)
    (ha : ∀ p, V.ref p ∈ u.subs → Able env.lower scope fallback m (.ref o) p) (hne : put (toward env.lower scope fallback m (.ref o)) .link u ≠ u) :
    ∃ p s i c, u = .ref p ∧ p ≠ o ∧ put (toward env.lower scope fallback m (.ref o)) .link u = .link s i ∧ clsAt m p = some c ∧ c ∈ cs := by
  cases u <;> simp [convTarget, isLink, isCls] at h
  · exact absurd rfl hne
  · exact absurd rfl hne
  · rename_i p
    have hpo : V.ref p ≠ V.ref o := by
      intro e
      simp only [put, toward, e, if_true] at hne
      exact hne rfl
    obtain ⟨x, hx, hl⟩ := (ha p (by simp [V.subs])).resolve_left hpo
    obtain ⟨s, i, _, e, _⟩ := linkOf_ok hx hl
    refine ⟨p, s, i, x.cls, rfl, fun e => hpo (by rw [e]), by simp only [put, toward, hpo, if_false, e], by simp [clsAt, hx], ?_⟩
    simpa [hx] using h

theorem back_own (c : ECls) (there back : String) (h : backRef c = some (there, back)) {cs : List ECls} (hk : kindOf c there = .target cs) :
    ∀ c' ∈ cs, back ∈ (eargs c').map EArg.attr ++ (ownFields c').map Prod.fst := by
  have key : ∀ c : ECls, ((backRef c).all fun e => match kindOf c e.1 with
      | .target cs => cs.all fun c' => decide (e.2 ∈ (eargs c').map EArg.attr ++ (ownFields c').map Prod.fst)
      | _ => true) = true := by intro c; cases c <;> decide +kernel
  have := key c
  rw [h] at this
  simp only [Option.all_some, hk] at this
  intro c' hc'
  simpa using List.all_eq_true.1 this c' hc'

theorem back_spec (c : ECls) (there back : String) (h : backRef c = some (there, back)) : there ≠ "_spec" ∧ ¬ isName c there := by
  cases c <;> simp [backRef] at h <;> simp [h.1.symm, isName]

/-- one attribute is set -/
theorem setAttr_links (hR : LinkReady env same scope fallback m o) {x : EObj} (hx : m[o]? = some x) {a : String} {rest : List String} {mem : Mem}
    (h : LoopL env scope fallback m o x (a :: rest) mem) (har : a ∉ rest) (ha : a ∉ backNames) (hna : ¬ isName x.cls a) {u : V} (hu : attrAt m o a = some u)
    (hne : put (toward env.lower scope fallback m (.ref o)) .link u ≠ u) :
    ∃ mem', setAttr env same mem o x.cls a (put (toward env.lower scope fallback m (.ref o)) .link u) = .ok mem' ∧ LoopL env scope fallback m o x rest mem' := by
  have hc : clsAt m o = some x.cls := by simp [clsAt, hx]
  have hcm : clsAt mem o = some x.cls := by rw [clsAt_skel h.sk]; exact hc
  have hf := fits_of_typed hR.typed hc hu ha
  have hable : ∀ p, V.ref p ∈ u.subs → Able env.lower scope fallback m (.ref o) p := by
    intro p hp
    by_cases e : p = o
    · exact .inl (by rw [e])
    · exact .inr (hR.able a u p ha hu hp e)
  have hg := Grows.ofLoop hR.typed h
  have hconv := conv_put env m mem _ (range_kind x.cls a) _ _ u hf.ok (toward_compat hg hable) hf.conv
  have hcur : attrAt mem o a = some u := by rw [h.here a ha, if_neg hna, if_pos (by simp)]; exact hu
  -- what is set last
  have hlast : ∀ mem1 : Mem, ∀ q b, attrAt mem1 o a = some u → attrAt (setField mem1 o a (fun _ => put (toward env.lower scope fallback m (.ref o)) .link u)) q b =
      if q = o ∧ b = a then some (put (toward env.lower scope fallback m (.ref o)) .link u) else attrAt mem1 q b := by
    intro mem1 q b h1
    rw [attrAt_setField, h1]
    rfl
  -- the other attributes of `o`
  have hhere : ∀ b, b ∉ backNames → b ≠ a → ¬ (x.cls = .ingredientRun ∧ a = "_spec") → attrAt mem o b =
      if isName x.cls b then (if "_spec" ∈ rest then attrAt m o b else (attrAt m o b).map (fun u => getattr m x (b, u)))
      else if b ∈ rest then attrAt m o b else (attrAt m o b).map (put (toward env.lower scope fallback m (.ref o)) .link) := by
    intro b hb hba hs
    rw [h.here b hb]
    by_cases hn : isName x.cls b
    · have : "_spec" ≠ a := fun e => hs ⟨hn.1, e.symm⟩
      simp [hn, this]
    · simp [hn, hba]
  by_cases hb : ∃ back, backRef x.cls = some (a, back)
  · obtain ⟨back, hb⟩ := hb
    have hbn := backRef_names hb
    obtain ⟨cs, hk⟩ := kind_back x.cls _ _ hb
    have hcv := hf.conv
    rw [hk] at hcv
    obtain ⟨p, s, i, c, rfl, hpo, hW, hcp, hccs⟩ := target_linked (scope := scope) (fallback := fallback) (o := o) (by simpa only [conv] using hcv) hable hne
    have hpt : Points mem back o p := points_attr.2 ⟨x.cls, a, hcm, hb, hcur⟩
    obtain ⟨v, hv⟩ := attr_exists hR.typed h.sk hcp (back_own x.cls a back hb hk c hccs)
    have hl := h.two p back v hbn hv
    have hkeep : ∀ mem, keepNames mem o x.cls a = mem := by
      intro mem
      unfold keepNames
      rw [if_neg (fun e => (back_spec _ _ _ hb).1 e.2)]
    obtain ⟨v', hun, hl'⟩ : ∃ v', unlink same mem o x.cls a = .ok (setField mem p back (fun _ => v')) ∧
        ∀ mem', (∀ q, Points mem' back q p ↔ Points mem back q p ∧ q ≠ o) → Lists mem' back p v' := by
      unfold unlink
      rw [hb]
      simp only [if_true, hcur]
      cases hl with
      | none _ hno => exact absurd hpt (hno o)
      | one q e hq huniq =>
        refine ⟨.none, by rw [if_pos e], fun mem' hm => .none e (fun q' hq' => ?_)⟩
        have := (hm q').1 hq'
        exact this.2 ((huniq q' this.1).trans (huniq o hpt).symm)
      | many as hno hnd hiff =>
        have hrem := removeFirst_ref (isSame same mem o) o (by simp [isSame]) as (fun q hq hqo => by
          obtain ⟨c', there, e1, e2, e3⟩ := points_attr.1 ((hiff q).1 hq)
          have hq' : Points m back q p := points_attr.2 ⟨c', there, by rw [← clsAt_skel h.sk]; exact e1, e2, by rw [← h.other q there hqo (backRef_there e2)]; exact e3⟩
          simp [isSame, hqo, hR.alone mem h.sk h.other q back p hqo hq' (points_attr.2 ⟨x.cls, a, hc, hb, hu⟩)]) hnd ((hiff o).2 hpt)
        refine ⟨.list ((as.filter (fun a => decide (a ≠ o))).map .ref), ?_, fun mem' hm => .many _ hno (hnd.filter _) (fun q => ?_)⟩
        · rw [if_neg hno, hv]
          simp only [hrem]
        · rw [hm q, List.mem_filter, hiff q]
          simp
    have h1 : attrAt (setField mem p back (fun _ => v')) o a = some (.ref p) := by
      rw [attrAt_setField, if_neg (fun e => ha (by rw [e.2]; exact hbn)), hcur]
    have htell : ∀ mem, tell mem o x.cls a (put (toward env.lower scope fallback m (.ref o)) .link (.ref p)) = mem := by
      intro mem
      simp only [tell, hb, if_true, hW]
    refine ⟨_, by simp only [setAttr, hconv, hun, hkeep, htell]; rfl, ?_⟩
    have hfwd : ∀ q b, b ∉ backNames → attrAt (setField (setField mem p back (fun _ => v')) o a (fun _ => put (toward env.lower scope fallback m (.ref o)) .link (.ref p))) q b =
        if q = o ∧ b = a then some (put (toward env.lower scope fallback m (.ref o)) .link (.ref p)) else attrAt mem q b := by
      intro q b hb'
      rw [hlast _ _ _ h1, attrAt_setField, if_neg (show ¬ (q = p ∧ b = back) from fun e => hb' (by rw [e.2]; exact hbn))]
    have hsk : (setField (setField mem p back (fun _ => v')) o a (fun _ => put (toward env.lower scope fallback m (.ref o)) .link (.ref p))).map skel = mem.map skel := by
      rw [setField_skel, setField_skel]
    refine ⟨by rw [hsk]; exact h.sk, fun q b hq hb' => ?_, fun b hb' => ?_, fun b n w hn hw => ?_⟩
    · rw [hfwd q b hb', if_neg (by simp [hq])]
      exact h.other q b hq hb'
    · rw [hfwd o b hb']
      by_cases e : b = a
      · subst e
        rw [if_pos ⟨rfl, rfl⟩, if_neg hna, if_neg har, hu]
        rfl
      · rw [if_neg (fun e' => e e'.2)]
        exact hhere b hb' e (fun e' => (back_spec _ _ _ hb).1 e'.2)
    · have hpts : ∀ n q b, Points (setField (setField mem p back (fun _ => v')) o a (fun _ => put (toward env.lower scope fallback m (.ref o)) .link (.ref p))) n q b ↔
          Points mem n q b ∧ ¬ (q = o ∧ n = back) := by
        intro n q b
        rw [points_attr, points_attr]
        constructor
        · rintro ⟨c', there, e1, e2, e3⟩
          rw [clsAt_skel hsk] at e1
          rw [hfwd q there (backRef_there e2)] at e3
          split at e3
          · rw [hW] at e3; cases e3
          · rename_i hne'
            refine ⟨⟨c', there, e1, e2, e3⟩, ?_⟩
            rintro ⟨rfl, rfl⟩
            rw [hcm] at e1
            cases e1
            rw [hb] at e2
            cases e2
            exact hne' ⟨rfl, rfl⟩
        · rintro ⟨⟨c', there, e1, e2, e3⟩, hno⟩
          refine ⟨c', there, by rw [clsAt_skel hsk]; exact e1, e2, ?_⟩
          rw [hfwd q there (backRef_there e2), if_neg]
          · exact e3
          · rintro ⟨rfl, rfl⟩
            rw [hcm] at e1
            cases e1
            rw [hb] at e2
            cases e2
            exact hno ⟨rfl, rfl⟩
      rw [hlast _ _ _ h1, if_neg (fun e => ha (by rw [← e.2]; exact hn)), attrAt_setField] at hw
      split at hw
      · rename_i e
        obtain ⟨rfl, rfl⟩ := e
        rw [hv] at hw
        cases hw
        refine hl' _ (fun q => ?_)
        rw [hpts]
        simp
      · rename_i e
        have hold := h.two b n w hn hw
        refine hold.congr (fun q => ?_)
        rw [hpts]
        refine ⟨fun h' => h'.1, fun h' => ⟨h', ?_⟩⟩
        rintro ⟨rfl, rfl⟩
        obtain ⟨c', there, e1, e2, e3⟩ := points_attr.1 h'
        rw [hcm] at e1
        cases e1
        rw [hb] at e2
        cases e2
        rw [hcur] at e3
        cases e3
        exact e ⟨rfl, rfl⟩
  · have hun : unlink same mem o x.cls a = .ok mem := by
      unfold unlink
      split
      · rfl
      · rename_i there back hb'
        rw [if_neg (fun e => hb ⟨back, by rw [hb', e]⟩)]
    have htell : ∀ mem, tell mem o x.cls a (put (toward env.lower scope fallback m (.ref o)) .link u) = mem := by
      intro mem
      unfold tell
      split
      · rfl
      · rename_i there back hb'
        rw [if_neg (fun e => hb ⟨back, by rw [hb', e]⟩)]
    have hnot : ∀ q c there back, clsAt mem q = some c → backRef c = some (there, back) → ¬ (q = o ∧ (there = a ∨ there = "_name" ∨ there = "_labels")) := by
      rintro q c there back e1 e2 ⟨rfl, e⟩
      rw [hcm] at e1
      cases e1
      rcases e with rfl | e
      · exact hb ⟨back, e2⟩
      · have : ∀ c : ECls, ((backRef c).all fun e => decide (e.1 ≠ "_name" ∧ e.1 ≠ "_labels")) = true := by intro c; cases c <;> decide +kernel
        have := this x.cls
        rw [e2] at this
        simp only [Option.all_some, decide_eq_true_eq] at this
        exact e.elim this.1 this.2
    by_cases hs : x.cls = .ingredientRun ∧ a = "_spec"
    · obtain ⟨hci, rfl⟩ := hs
      have hk : kindOf x.cls "_spec" = .target [.ingredientSpec] := by rw [hci]; decide +kernel
      have hcv := hf.conv
      rw [hk] at hcv
      obtain ⟨p, s, i, c, rfl, hpo, hW, hcp, hccs⟩ := target_linked (scope := scope) (fallback := fallback) (o := o) (by simpa only [conv] using hcv) hable hne
      simp only [List.mem_singleton] at hccs
      subst hccs
      obtain ⟨n, hn⟩ := attr_exists hR.typed (mem := m) rfl hcp (n := "_name") (by decide +kernel)
      obtain ⟨ls, hls⟩ := attr_exists hR.typed (mem := m) rfl hcp (n := "_labels") (by decide +kernel)
      have hkeep : keepNames mem o x.cls "_spec" = setField (setField mem o "_name" (fun _ => n)) o "_labels" (fun _ => ls) := by
        unfold keepNames
        rw [if_pos ⟨hci, rfl⟩, hcur]
        simp only
        rw [h.other p "_name" hpo (by decide), h.other p "_labels" hpo (by decide), hn, hls]
      have h1 : attrAt (setField (setField mem o "_name" (fun _ => n)) o "_labels" (fun _ => ls)) o "_spec" = some (.ref p) := by
        rw [attrAt_setField, if_neg (by simp), attrAt_setField, if_neg (by simp), hcur]
      refine ⟨_, by simp only [setAttr, hconv, hun, hkeep, htell]; rfl, ?_⟩
      refine ⟨by rw [setField_skel, setField_skel, setField_skel]; exact h.sk, fun q b hq hb' => ?_, fun b hb' => ?_, ?_⟩
      · rw [hlast _ _ _ h1, if_neg (by simp [hq]), attrAt_setField, if_neg (by simp [hq]), attrAt_setField, if_neg (by simp [hq])]
        exact h.other q b hq hb'
      · rw [hlast _ _ _ h1]
        have hsp : ∀ w b, (b = "_name" ∨ b = "_labels") → getattr m x (b, w) = (attrAt m p b).getD .none := by
          intro w b e
          have hg : Dict.get? x.fields "_spec" = some (.ref p) := by simpa only [attrAt, hx] using hu
          unfold getattr
          rw [if_pos ⟨hci, e⟩, hg]
          cases hy : m[p]? with
          | none => simp [clsAt, hy] at hcp
          | some y =>
            have : y.cls = .ingredientSpec := by simpa [clsAt, hy] using hcp
            simp only [this, if_true, attrAt, hy]
        by_cases hbn : isName x.cls b
        · have hbo := h.here b hb'
          rw [if_pos hbn, if_pos (by simp)] at hbo
          rw [if_pos hbn, if_neg har]
          rcases hbn.2 with rfl | rfl
          · rw [if_neg (by simp), attrAt_setField, if_neg (by simp), attrAt_setField, if_pos ⟨rfl, rfl⟩, hbo]
            congr 1
            funext w
            rw [hsp w _ (.inl rfl), hn]
            rfl
          · rw [if_neg (by simp), attrAt_setField, if_pos ⟨rfl, rfl⟩, attrAt_setField, if_neg (by simp), hbo]
            congr 1
            funext w
            rw [hsp w _ (.inr rfl), hls]
            rfl
        · rw [if_neg hbn]
          by_cases e : b = "_spec"
          · subst e
            rw [if_pos ⟨rfl, rfl⟩, if_neg har, hu]
            rfl
          · have hbn' : b ≠ "_name" ∧ b ≠ "_labels" := ⟨fun e => hbn ⟨hci, .inl e⟩, fun e => hbn ⟨hci, .inr e⟩⟩
            rw [if_neg (fun e' => e e'.2), attrAt_setField, if_neg (by simp [hbn'.2]), attrAt_setField, if_neg (by simp [hbn'.1]), h.here b hb', if_neg hbn]
            simp [e]
      · refine twoWay_same (by rw [setField_skel, setField_skel, setField_skel]) (fun q n' hn' => ?_) (fun q c there back e1 e2 => ?_) h.two
        · have : n' ≠ "_spec" ∧ n' ≠ "_labels" ∧ n' ≠ "_name" := by
            have : ∀ n ∈ backNames, n ≠ "_spec" ∧ n ≠ "_labels" ∧ n ≠ "_name" := by decide
            exact this n' hn'
          rw [hlast _ _ _ h1, if_neg (by simp [this.1]), attrAt_setField, if_neg (by simp [this.2.1]), attrAt_setField, if_neg (by simp [this.2.2])]
        · have := hnot q c there back e1 e2
          rw [hlast _ _ _ h1, if_neg (fun e => this ⟨e.1, .inl e.2⟩), attrAt_setField, if_neg (fun e => this ⟨e.1, .inr (.inr e.2)⟩), attrAt_setField,
            if_neg (fun e => this ⟨e.1, .inr (.inl e.2)⟩)]
    · have hkeep : keepNames mem o x.cls a = mem := by
        unfold keepNames
        rw [if_neg hs]
      refine ⟨_, by simp only [setAttr, hconv, hun, hkeep, htell]; rfl, ?_⟩
      refine ⟨by rw [setField_skel]; exact h.sk, fun q b hq hb' => ?_, fun b hb' => ?_, ?_⟩
      · rw [hlast _ _ _ hcur, if_neg (by simp [hq])]
        exact h.other q b hq hb'
      · rw [hlast _ _ _ hcur]
        by_cases e : b = a
        · subst e
          rw [if_pos ⟨rfl, rfl⟩, if_neg hna, if_neg har, hu]
          rfl
        · rw [if_neg (fun e' => e e'.2)]
          exact hhere b hb' e hs
      · refine twoWay_same (setField_skel _ _ _ _) (fun q n' hn' => ?_) (fun q c there back e1 e2 => ?_) h.two
        · rw [hlast _ _ _ hcur, if_neg (fun e => ha (by rw [← e.2]; exact hn'))]
        · rw [hlast _ _ _ hcur, if_neg (fun e => hnot q c there back e1 e2 ⟨e.1, .inl e.2⟩)]

/-- the name and the labels of an ingredient run -/
theorem getattr_names (hW : WellTyped env m) {x : EObj} (hx : m[o]? = some x) (hci : x.cls = .ingredientRun) {a : String} {u : V} (hu : attrAt m o a = some u) :
    (a = "_name" → nameLike (getattr m x (a, u))) ∧ (a = "_labels" → labelsLike (getattr m x (a, u))) := by
  have hc : clsAt m o = some x.cls := by simp [clsAt, hx]
  constructor
  · rintro rfl
    have h0 := (fits_of_typed hW hc hu (by decide)).name hci rfl
    unfold getattr
    rw [if_pos ⟨hci, .inl rfl⟩]
    split
    · rename_i p hs
      split
      · rename_i y hy
        split
        · rename_i hcy
          cases hg : Dict.get? y.fields "_name" with
          | none => exact .inl rfl
          | some w => exact spec_name hW (p := p) (by simp [clsAt, hy, hcy]) (by simp [attrAt, hy, hg])
        · exact h0
      · exact h0
    · exact h0
  · rintro rfl
    have h0 := (fits_of_typed hW hc hu (by decide)).labels hci rfl
    unfold getattr
    rw [if_pos ⟨hci, .inr rfl⟩]
    split
    · rename_i p hs
      split
      · rename_i y hy
        split
        · rename_i hcy
          cases hg : Dict.get? y.fields "_labels" with
          | none => exact .inl rfl
          | some w => exact spec_labels hW (p := p) (by simp [clsAt, hy, hcy]) (by simp [attrAt, hy, hg])
        · exact h0
      · exact h0
    · exact h0

/-- an entry of `as_dict()` -/
structure EntryL (m : Mem) (o : Nat) (x : EObj) (f : String × V) : Prop where
  fwd : f.1 ∉ backNames
  val : ∃ u, attrAt m o f.1 = some u ∧ f.2 = getattr m x (f.1, u)

theorem loop_skip (hR : LinkReady env same scope fallback m o) {x : EObj} (hx : m[o]? = some x) {a : String} {rest : List String} {mem : Mem}
    (h : LoopL env scope fallback m o x (a :: rest) mem) (har : a ∉ rest) {u : V} (hu : attrAt m o a = some u) (ha : a ∉ backNames)
    (hk : isName x.cls a ∨ put (toward env.lower scope fallback m (.ref o)) .link u = u) : LoopL env scope fallback m o x rest mem := by
  have hc : clsAt m o = some x.cls := by simp [clsAt, hx]
  refine ⟨h.sk, h.other, fun b hb => ?_, h.two⟩
  rw [h.here b hb]
  by_cases hbn : isName x.cls b
  · rw [if_pos hbn, if_pos hbn]
    by_cases e : a = "_spec"
    · subst e
      rw [if_pos (by simp), if_neg har]
      have hk : put (toward env.lower scope fallback m (.ref o)) .link u = u := hk.resolve_left (by simp [isName])
      have hf := (fits_of_typed hR.typed hc hu ha).conv
      have hkind : kindOf x.cls "_spec" = .target [.ingredientSpec] := by rw [hbn.1]; decide +kernel
      rw [hkind] at hf
      have hg : Dict.get? x.fields "_spec" = some u := by simpa only [attrAt, hx] using hu
      have hget : ∀ w, getattr m x (b, w) = w := by
        intro w
        unfold getattr
        rw [if_pos (show x.cls = .ingredientRun ∧ _ from hbn), hg]
        cases u with
        | ref p =>
          exfalso
          have hpo : p ≠ o := by
            rintro rfl
            simp [conv, convTarget, isLink, isCls, hx, hbn.1] at hf
          obtain ⟨y, hy, hl⟩ := hR.able _ _ p ha hu (by simp [V.subs]) hpo
          obtain ⟨s, i, _, e, _⟩ := linkOf_ok hy hl
          simp [put, toward, hpo, e] at hk
        | _ => rfl
      cases attrAt m o b with
      | none => rfl
      | some w => simp only [Option.map_some, hget]
    · simp [Ne.symm e]
  · rw [if_neg hbn, if_neg hbn]
    by_cases e : b = a
    · subst e
      rw [if_pos (by simp), if_neg har, hu, Option.map_some, hk.resolve_left hbn]
    · simp [e]

/-- all attributes of the entity -/
theorem setFields_links (hR : LinkReady env same scope fallback m o) {x : EObj} (hx : m[o]? = some x) {expand : Nat → SubSt → Except PyErr SubSt} :
    ∀ (fs : List (String × V)) (st : SubSt), (fs.map Prod.fst).Nodup → (∀ f ∈ fs, EntryL m o x f) →
      LoopL env scope fallback m o x (fs.map Prod.fst) st.mem → LinkInv env.lower scope fallback m (.ref o) st →
      ∃ st', setFields env same (linkRepl env.lower scope fallback (.ref o)) expand o x.cls fs st = .ok st' ∧ LoopL env scope fallback m o x [] st'.mem := by
  intro fs
  induction fs with
  | nil => intro st _ _ h _; exact ⟨st, rfl, h⟩
  | cons f fs ih =>
    obtain ⟨a, v⟩ := f
    intro st hnd hent h hi
    obtain ⟨ha, u, hu, hv⟩ := hent (a, v) (by simp)
    simp only at ha hu hv
    simp only [List.map_cons, List.nodup_cons] at hnd h
    have hc : clsAt m o = some x.cls := by simp [clsAt, hx]
    have hg := Grows.ofLoop hR.typed h
    have hval : (isName x.cls a ∧ put (toward env.lower scope fallback m (.ref o)) .link v = v ∧ Plain v ∧ (∀ p, V.ref p ∉ v.subs) ∧ okV env st.mem v) ∨
        (¬ isName x.cls a ∧ v = u) := by
      by_cases hn : isName x.cls a
      · left
        have := getattr_names hR.typed hx hn.1 hu
        rw [← hv] at this
        rcases hn.2 with e | e
        · have := this.1 e
          exact ⟨hn, put_name this, plain_name this, name_subs this, name_ok this⟩
        · have := this.2 e
          exact ⟨hn, put_labels this, plain_labels this, labels_subs this, labels_ok this⟩
      · right
        refine ⟨hn, ?_⟩
        rw [hv]
        unfold getattr
        rw [if_neg (show ¬ (x.cls = .ingredientRun ∧ _) from hn)]
    have hable : ∀ p, V.ref p ∈ u.subs → Able env.lower scope fallback m (.ref o) p := by
      intro p hp
      by_cases e : p = o
      · exact .inl (by rw [e])
      · exact .inr (hR.able a u p ha hu hp e)
    obtain ⟨st1, e1, m1, i1⟩ : ∃ st', subI env (linkRepl env.lower scope fallback (.ref o)) expand v st =
        .ok (put (toward env.lower scope fallback m (.ref o)) .link v, st') ∧ st'.mem = st.mem ∧ LinkInv env.lower scope fallback m (.ref o) st' := by
      rcases hval with ⟨_, h1, h2, h3, h4⟩ | ⟨_, rfl⟩
      · exact subI_links v st h2 (by rw [h1]; exact h4) (fun p hp => absurd hp (h3 p)) hi
      · exact subI_links v st (hR.plain a v ha hu) (okV_put env m st.mem _ _ v (fits_of_typed hR.typed hc hu ha).ok (toward_compat hg hable)) hable hi
    simp only [setFields, e1]
    by_cases hw : put (toward env.lower scope fallback m (.ref o)) .link v = v
    · rw [if_pos hw]
      refine ih st1 hnd.2 (fun f hf => hent f (by simp [hf])) ?_ i1
      rw [m1]
      refine loop_skip hR hx h hnd.1 hu ha ?_
      rcases hval with ⟨h1, _⟩ | ⟨_, rfl⟩
      · exact .inl h1
      · exact .inr hw
    · rw [if_neg hw]
      rcases hval with ⟨_, h1, _⟩ | ⟨hn, rfl⟩
      · exact absurd h1 hw
      · obtain ⟨mem', e2, l2⟩ := setAttr_links hR hx h hnd.1 ha hn hu hw
        rw [m1, e2]
        simp only
        exact ih { st1 with mem := mem' } hnd.2 (fun f hf => hent f (by simp [hf])) l2 ⟨l2.sk, i1.vis, i1.top⟩

theorem shown_names (m : Mem) (x : EObj) : (shown m x).map Prod.fst = (x.fields.map Prod.fst).filter (fun n => decide (n ∉ skip x.cls)) := by
  simp [shown, List.map_map, Function.comp_def, List.filter_map]

/-- the run on an entity -/
theorem run_links (hR : LinkReady env same scope fallback m o) : ∃ x m', m[o]? = some x ∧ linksInplace env same scope fallback m (.ref o) = .ok (.ref o, m') ∧
    LoopL env scope fallback m o x [] m' := by
  obtain ⟨x, hx⟩ : ∃ x, m[o]? = some x := ⟨m[o]'hR.there, List.getElem?_eq_getElem hR.there⟩
  have hnames := typed_names hR.typed hx
  have hnd : (x.fields.map Prod.fst).Nodup := by rw [hnames]; exact names_nodup _
  have hfwd : ∀ f ∈ x.fields, f.1 ∉ skip x.cls → f.1 ∉ backNames := fun f hf hs hb =>
    hs (names_skip _ _ (by rw [← hnames]; exact List.mem_map.2 ⟨f, hf, rfl⟩) hb)
  have hin : ∀ a u, a ∉ backNames → attrAt m o a = some u → a ∈ (shown m x).map Prod.fst := by
    intro a u ha hu
    rw [shown_names, List.mem_filter]
    simp only [attrAt, hx] at hu
    exact ⟨List.mem_map.2 ⟨(a, u), Dict.mem_of_get? hu, rfl⟩, by simpa using fun hs => ha (skip_back _ _ hs)⟩
  have h0 : LoopL env scope fallback m o x ((shown m x).map Prod.fst) m := by
    refine ⟨rfl, fun _ _ _ _ => rfl, fun a ha => ?_, hR.two⟩
    split
    · rename_i hn
      obtain ⟨v, hv⟩ := attr_exists hR.typed (mem := m) rfl (p := o) (c := x.cls) (by simp [clsAt, hx]) (n := "_spec") (by rw [hn.1]; decide +kernel)
      rw [if_pos (hin "_spec" v (by decide) hv)]
    · split
      · rfl
      · rename_i hno
        cases hu : attrAt m o a with
        | none => rfl
        | some u => exact absurd (hin a u ha hu) hno
  have hrec : recall (V.ref o) { visited := [], mem := m } = none := by simp [recall, V.hash, Dict.get?]
  have hi : LinkInv env.lower scope fallback m (.ref o) (remember (.ref o) (.ref o) { visited := [], mem := m }) := by
    refine ⟨by rw [remember_mem], fun k w hk => ?_, fun o' ho' => ?_⟩
    · rcases remember_get (hash_pointer (t := .ref o) trivial) hk with ⟨rfl, rfl⟩ | ⟨_, hk⟩
      · exact ⟨.ref o, trivial, rfl, by simp [put, toward]⟩
      · simp [Dict.get?] at hk
    · cases ho'
      simp [remember, V.hash, V.norm, Dict.set, Dict.get?]
  obtain ⟨st', e, hl⟩ := setFields_links hR hx (expand := expandI env same (linkRepl env.lower scope fallback (.ref o)) 0) (shown m x)
    (remember (.ref o) (.ref o) { visited := [], mem := m }) (by rw [shown_names]; exact hnd.filter _) (fun f hf => by
      obtain ⟨g, hg, rfl⟩ := List.mem_map.1 hf
      obtain ⟨hg, hs⟩ := List.mem_filter.1 hg
      exact ⟨hfwd g hg (by simpa using hs), g.2, by simp only [attrAt, hx]; exact Dict.get?_of_mem hnd hg, rfl⟩) (by rw [remember_mem]; exact h0) hi
  refine ⟨x, st'.mem, hx, ?_, hl⟩
  have hmem : (remember (.ref o) (.ref o) { visited := [], mem := m }).mem = m := remember_mem _ _ _
  have hexp : expandI env same (linkRepl env.lower scope fallback (.ref o)) 1 o (remember (.ref o) (.ref o) { visited := [], mem := m }) = .ok st' := by
    rw [expandI, hmem, hx]
    exact e
  simp only [linksInplace, substituteI, subI, leaf, hrec, linkRepl, if_true, Option.getD_none, into, hexp]

/-- a run is well-typed afterwards -/
theorem typed_links (hR : LinkReady env same scope fallback m o) {x : EObj} (hx : m[o]? = some x) {mem : Mem} (h : LoopL env scope fallback m o x [] mem) :
    WellTyped env mem := by
  have hg := Grows.ofLoop hR.typed h
  refine typed_of_fits (fun q y hy => ?_)
  obtain ⟨x0, hx0, hsk⟩ := skel_at h.sk.symm hy
  have e1 : x0.cls = y.cls := congrArg Prod.fst hsk
  have e2 : x0.fields.map Prod.fst = y.fields.map Prod.fst := congrArg (fun s => s.2.2) hsk
  have e3 : x0.uids = y.uids := congrArg (fun s => s.2.1) hsk
  refine ⟨by rw [← e1, ← e2]; exact typed_names hR.typed hx0, ?_, fun a w ha hw => ?_⟩
  · obtain ⟨_, _, hs, _⟩ := hR.typed q x0 hx0
    rw [← e3]
    exact hs.uids
  · have hc : clsAt m q = some y.cls := by simp [clsAt, hx0, e1]
    by_cases hq : q = o
    · subst hq
      rw [hx] at hx0
      cases hx0
      rw [h.here a ha] at hw
      simp only [List.not_mem_nil, if_false] at hw
      cases hu : attrAt m q a with
      | none => rw [hu] at hw; split at hw <;> cases hw
      | some u =>
        rw [hu] at hw
        have hf := fits_of_typed hR.typed hc hu ha
        split at hw
        · rename_i hn
          simp only [Option.map_some, Option.some.injEq] at hw
          subst hw
          have hgn := getattr_names hR.typed hx hn.1 hu
          have hraw : kindOf y.cls a = .raw := by
            rw [← e1, hn.1]
            rcases hn.2 with rfl | rfl <;> decide +kernel
          refine ⟨by rw [hraw]; rfl, ?_, fun _ e => hgn.1 e, fun _ e => hgn.2 e⟩
          rcases hn.2 with e | e
          · exact name_ok (hgn.1 e)
          · exact labels_ok (hgn.2 e)
        · rename_i hn
          simp only [Option.map_some, Option.some.injEq] at hw
          subst hw
          have hable : ∀ p, V.ref p ∈ u.subs → Able env.lower scope fallback m (.ref q) p := by
            intro p hp
            by_cases e : p = q
            · exact .inl (by rw [e])
            · exact .inr (hR.able a u p ha hu hp e)
          have hcomp := toward_compat hg hable
          exact ⟨conv_put env m mem _ (range_kind y.cls a) _ _ u hf.ok hcomp hf.conv, okV_put env m mem _ _ u hf.ok hcomp,
            fun e e' => absurd ⟨by rw [e1]; exact e, .inl e'⟩ hn, fun e e' => absurd ⟨by rw [e1]; exact e, .inr e'⟩ hn⟩
    · rw [h.other q a hq ha] at hw
      exact (fits_of_typed hR.typed hc hw ha).grows hg

theorem fields_eq {fs : List (String × V)} (hnd : (fs.map Prod.fst).Nodup) : fs = (fs.map Prod.fst).map (fun n => (n, (Dict.get? fs n).getD .none)) := by
  rw [List.map_map]
  conv => lhs; rw [← List.map_id fs]
  refine List.map_congr_left (fun f hf => ?_)
  have := Dict.get?_of_mem (d := fs) hnd (k := f.1) (v := f.2) hf
  simp [this]

/-- what is seen of the entity afterwards -/
theorem seen_links (hR : LinkReady env same scope fallback m o) {x : EObj} (hx : m[o]? = some x) {mem : Mem} (h : LoopL env scope fallback m o x [] mem) :
    ∃ x', mem[o]? = some x' ∧ skel x' = skel x ∧ asDict mem x' = (asDict m x).map (fun f => (f.1, put (toward env.lower scope fallback m (.ref o)) .link f.2)) := by
  obtain ⟨x', hx', hsk⟩ := skel_at h.sk hx
  have e1 : x'.cls = x.cls := congrArg Prod.fst hsk
  have e2 : x'.fields.map Prod.fst = x.fields.map Prod.fst := congrArg (fun s => s.2.2) hsk
  have e3 : x'.uids = x.uids := congrArg (fun s => s.2.1) hsk
  have hc : clsAt m o = some x.cls := by simp [clsAt, hx]
  refine ⟨x', hx', hsk, ?_⟩
  have hnames := typed_names hR.typed hx
  have hnd : (x.fields.map Prod.fst).Nodup := by rw [hnames]; exact names_nodup _
  have hnd' : (x'.fields.map Prod.fst).Nodup := by rw [e2]; exact hnd
  have hstr : ∀ l : List (String × String), puts (toward env.lower scope fallback m (.ref o)) .link (l.map (fun p => V.str p.2)) = l.map (fun p => V.str p.2) := by
    intro l
    refine puts_str (fun w hw => ?_)
    obtain ⟨p, _, rfl⟩ := List.mem_map.1 hw
    rfl
  have hu : put (toward env.lower scope fallback m (.ref o)) .link (uidsDict x.uids) = uidsDict x.uids := by
    simp only [uidsDict, put, hstr]
  simp only [asDict, List.map_cons, e1, e3, hu, put, List.cons.injEq, true_and, List.map_map]
  have hl : ∀ (mm : Mem) (z : EObj), (z.fields.map Prod.fst).Nodup → (z.fields.filter (fun f => decide (f.1 ∉ skip x.cls))) =
      ((z.fields.map Prod.fst).filter (fun n => decide (n ∉ skip x.cls))).map (fun n => (n, (Dict.get? z.fields n).getD .none)) := by
    intro mm z hz
    conv => lhs; rw [fields_eq hz]
    rw [List.filter_map]
    rfl
  rw [hl mem x' hnd', hl m x hnd, e2, List.map_map, List.map_map]
  refine List.map_congr_left (fun n hn => ?_)
  obtain ⟨hn, hns⟩ := List.mem_filter.1 hn
  have hns : n ∉ skip x.cls := by simpa using hns
  have hb : n ∉ backNames := fun hb => hns (names_skip _ _ (by rw [← hnames]; exact hn) hb)
  obtain ⟨⟨n', u⟩, hf, e⟩ := List.mem_map.1 hn
  simp only at e
  subst e
  have hgu : Dict.get? x.fields n' = some u := Dict.get?_of_mem hnd hf
  have hau : attrAt m o n' = some u := by simp only [attrAt, hx, hgu]
  have hh := h.here n' hb
  simp only [List.not_mem_nil, if_false, hau, Option.map_some] at hh
  have hg' : ∀ w, attrAt mem o n' = some w → Dict.get? x'.fields n' = some w := fun w hw => by simpa only [attrAt, hx'] using hw
  simp only [Function.comp_apply, hgu, Option.getD_some, Prod.mk.injEq, true_and]
  by_cases hname : isName x.cls n'
  · rw [if_pos hname] at hh
    rw [hg' _ hh, Option.getD_some]
    have hinert : put (toward env.lower scope fallback m (.ref o)) .link (getattr m x (n', u)) = getattr m x (n', u) := by
      have := getattr_names hR.typed hx hname.1 hau
      rcases hname.2 with e | e
      · exact put_name (this.1 e)
      · exact put_labels (this.2 e)
    rw [hinert]
    have hspec := h.here "_spec" (by decide)
    rw [if_neg (by simp [isName])] at hspec
    simp only [List.not_mem_nil, if_false] at hspec
    generalize getattr m x (n', u) = w
    unfold getattr
    rw [if_pos (show x'.cls = .ingredientRun ∧ _ from ⟨by rw [e1]; exact hname.1, hname.2⟩)]
    split
    · rename_i p hp
      exfalso
      have hp' : attrAt mem o "_spec" = some (.ref p) := by simp only [attrAt, hx', hp]
      rw [hp'] at hspec
      cases hs : attrAt m o "_spec" with
      | none => rw [hs] at hspec; cases hspec
      | some v =>
        rw [hs, Option.map_some, Option.some.injEq] at hspec
        have hcv := (fits_of_typed hR.typed hc hs (by decide)).conv
        have hkind : kindOf x.cls "_spec" = .target [.ingredientSpec] := by rw [hname.1]; decide +kernel
        rw [hkind] at hcv
        by_cases hne : put (toward env.lower scope fallback m (.ref o)) .link v = v
        · rw [hne] at hspec
          subst hspec
          have hpo : p ≠ o := by
            rintro rfl
            simp [conv, convTarget, isLink, isCls, hx, hname.1] at hcv
          obtain ⟨y, hy, hl⟩ := hR.able _ _ p (by decide) hs (by simp [V.subs]) hpo
          obtain ⟨s, i, _, e, _⟩ := linkOf_ok hy hl
          simp [put, toward, hpo, e] at hne
        · obtain ⟨_, s, i, _, _, _, hW, _⟩ := target_linked (scope := scope) (fallback := fallback) (o := o) (env := env) (by simpa only [conv] using hcv) (fun p hp => by
            by_cases e : p = o
            · exact .inl (by rw [e])
            · exact .inr (hR.able _ _ p (by decide) hs hp e)) hne
          rw [hW] at hspec
          cases hspec
    · rfl
  · rw [if_neg hname] at hh
    rw [hg' _ hh, Option.getD_some]
    unfold getattr
    rw [if_neg (show ¬ (x'.cls = .ingredientRun ∧ _) from fun e => hname ⟨by rw [← e1]; exact e.1, e.2⟩), if_neg (show ¬ (x.cls = .ingredientRun ∧ _) from hname)]

/-- the others are seen as before -/
theorem others_links (hR : LinkReady env same scope fallback m o) {x : EObj} (hx : m[o]? = some x) {mem : Mem} (h : LoopL env scope fallback m o x [] mem)
    {q : Nat} (hq : q ≠ o) {y : EObj} (hy : m[q]? = some y) : ∃ y', mem[q]? = some y' ∧ skel y' = skel y ∧ asDict mem y' = asDict m y := by
  obtain ⟨y', hy', hsk⟩ := skel_at h.sk hy
  refine ⟨y', hy', hsk, ?_⟩
  have e1 : y'.cls = y.cls := congrArg Prod.fst hsk
  have e2 : y'.fields.map Prod.fst = y.fields.map Prod.fst := congrArg (fun s => s.2.2) hsk
  have e3 : y'.uids = y.uids := congrArg (fun s => s.2.1) hsk
  have hnames := typed_names hR.typed hy
  have hnd : (y.fields.map Prod.fst).Nodup := by rw [hnames]; exact names_nodup _
  have hnd' : (y'.fields.map Prod.fst).Nodup := by rw [e2]; exact hnd
  simp only [asDict, e1, e3, List.cons.injEq, true_and]
  have hl : ∀ (z : EObj), (z.fields.map Prod.fst).Nodup → (z.fields.filter (fun f => decide (f.1 ∉ skip y.cls))) =
      ((z.fields.map Prod.fst).filter (fun n => decide (n ∉ skip y.cls))).map (fun n => (n, (Dict.get? z.fields n).getD .none)) := by
    intro z hz
    conv => lhs; rw [fields_eq hz]
    rw [List.filter_map]
    rfl
  rw [hl y' hnd', hl y hnd, e2, List.map_map, List.map_map]
  refine List.map_congr_left (fun n hn => ?_)
  obtain ⟨hn, hns⟩ := List.mem_filter.1 hn
  have hns : n ∉ skip y.cls := by simpa using hns
  have hb : n ∉ backNames := fun hb => hns (names_skip _ _ (by rw [← hnames]; exact hn) hb)
  obtain ⟨⟨n', u⟩, hf, e⟩ := List.mem_map.1 hn
  simp only at e
  subst e
  have hgu : Dict.get? y.fields n' = some u := Dict.get?_of_mem hnd hf
  have hau : attrAt m q n' = some u := by simp only [attrAt, hy, hgu]
  have hg : ∀ a, a ∉ backNames → Dict.get? y'.fields a = Dict.get? y.fields a := fun a ha => by
    have := h.other q a hq ha
    simpa only [attrAt, hy', hy] using this
  simp only [Function.comp_apply, hg n' hb, hgu, Option.getD_some, Prod.mk.injEq, true_and]
  by_cases hname : isName y.cls n'
  · have hn := getattr_names hR.typed hy hname.1 hau
    have hinert : put (toward env.lower scope fallback m (.ref o)) .link (getattr m y (n', u)) = getattr m y (n', u) := by
      rcases hname.2 with e | e
      · exact put_name (hn.1 e)
      · exact put_labels (hn.2 e)
    unfold getattr at hinert ⊢
    rw [if_pos (show y.cls = .ingredientRun ∧ _ from hname)] at hinert ⊢
    rw [if_pos (show y'.cls = .ingredientRun ∧ _ from ⟨by rw [e1]; exact hname.1, hname.2⟩), hg "_spec" (by decide)]
    split
    · rename_i p hp
      simp only [hp] at hinert
      cases hz : m[p]? with
      | none =>
        have : mem[p]? = none := by
          rw [List.getElem?_eq_none_iff] at hz ⊢
          have := congrArg List.length h.sk
          simp only [List.length_map] at this
          omega
        rw [this]
      | some z =>
        obtain ⟨z', hz', hskz⟩ := skel_at h.sk hz
        have ez : z'.cls = z.cls := congrArg Prod.fst hskz
        simp only [hz] at hinert
        simp only [hz', ez]
        split
        · rename_i hzc
          rw [if_pos hzc] at hinert
          by_cases hpo : p = o
          · subst hpo
            rw [hx] at hz
            cases hz
            have hh := h.here n' hb
            rw [if_neg (show ¬ isName x.cls n' from fun hi => by rw [hzc] at hi; exact absurd hi.1 (by decide))] at hh
            simp only [List.not_mem_nil, if_false, attrAt, hz', hx] at hh
            rw [hh]
            cases hgz : Dict.get? x.fields n' with
            | none => rfl
            | some w =>
              rw [hgz] at hinert
              simpa using hinert
          · have := h.other p n' hpo hb
            simp only [attrAt, hz', hz] at this
            rw [this]
        · rfl
    · rfl
  · unfold getattr
    rw [if_neg (show ¬ (y'.cls = .ingredientRun ∧ _) from fun e => hname ⟨by rw [← e1]; exact e.1, e.2⟩), if_neg (show ¬ (y.cls = .ingredientRun ∧ _) from hname)]

end

/-! ## C61 -/

/-- C61: `substitute_links(x, scope, allow_fallback, inplace=True)` for an entity `x`, if the other entities in it have ids to link to. It returns `x` itself,
and in `x` each other entity is replaced by a link that it is equal to, at the place where it was; the rest of `x`, such as its name and labels, is as before, even those that
were read from its spec. All other entities are seen as before; only their back-links may change, such that two-way links are as they should be.

Missing: values that are not `Plain` (tuples, and dictionaries with keys other than strings), and entities equal to `x` that have a two-way link to the same entity. -/
theorem C61_entity_partial {env : Env} {same : Mem → Nat → Nat → Bool} {scope : Option String} {fallback : Bool} {m : Mem} {o : Nat}
    (h : LinkReady env same scope fallback m o) :
    ∃ x x' m' f, m[o]? = some x ∧ linksInplace env same scope fallback m (.ref o) = .ok (.ref o, m') ∧ m'[o]? = some x' ∧
      skel x' = skel x ∧ asDict m' x' = (asDict m x).map (fun e => (e.1, put f .link e.2)) ∧
      f o = .ref o ∧ (∀ a u p, a ∉ backNames → attrAt m o a = some u → V.ref p ∈ u.subs → p ≠ o → LinkTo env.lower m p (f p)) ∧
      m'.length = m.length ∧ (∀ q y, q ≠ o → m[q]? = some y → ∃ y', m'[q]? = some y' ∧ skel y' = skel y ∧ asDict m' y' = asDict m y) ∧
      (∀ q a, q ≠ o → a ∉ backNames → attrAt m' q a = attrAt m q a) ∧ TwoWay m' ∧ WellTyped env m' := by
  obtain ⟨x, m', hx, hrun, hL⟩ := run_links h
  obtain ⟨x', hx', hs, hd⟩ := seen_links h hx hL
  refine ⟨x, x', m', toward env.lower scope fallback m (.ref o), hx, hrun, hx', hs, hd, by simp [toward], fun a u p ha hu hp hne => ?_, ?_,
    fun q y hq hy => others_links h hx hL hq hy, hL.other, hL.two, typed_links h hx hL⟩
  · obtain ⟨y, hy, hl⟩ := h.able a u p ha hu hp hne
    obtain ⟨s, i, _, e, hc⟩ := linkOf_ok hy hl
    refine ⟨s, i, ?_, hc⟩
    simp [toward, hne, e]
  · have := congrArg List.length hL.sk
    simpa using this

/-- C61: the same for a value that is not an entity, such as a list or a dictionary: all entities in it are replaced by links that they are equal to, and no entity changes.

Missing: values that are not `Plain`. -/
theorem C61_value_partial {env : Env} (same : Mem → Nat → Nat → Bool) {scope : Option String} {fallback : Bool} {m : Mem} {v : V} (hv : ∀ o, v ≠ .ref o) (hp : Plain v)
    (ho : okV env m v) (ha : ∀ p, V.ref p ∈ v.subs → ∃ y, m[p]? = some y ∧ Linkable env.lower scope fallback y) :
    ∃ f, linksInplace env same scope fallback m v = .ok (put f .link v, m) ∧ ∀ p, V.ref p ∈ v.subs → LinkTo env.lower m p (f p) := by
  have hab : ∀ p, V.ref p ∈ v.subs → Able env.lower scope fallback m v p := fun p hp => .inr (ha p hp)
  obtain ⟨st', e, hm, _⟩ := subI_links (expand := expandI env same (linkRepl env.lower scope fallback v) 1) v { visited := [], mem := m } hp
    (okV_put env m m _ _ v ho (toward_compat (env := env) (fun p x hx => ⟨x, hx, rfl, fun _ h => h⟩) hab)) hab
    ⟨rfl, fun k w hk => by simp [Dict.get?] at hk, fun o e => absurd e (hv o)⟩
  refine ⟨toward env.lower scope fallback m v, ?_, fun p hp => ?_⟩
  · unfold linksInplace substituteI
    rw [e]
    simp only [hm]
  · obtain ⟨y, hy, hl⟩ := ha p hp
    obtain ⟨s, i, _, e, hc⟩ := linkOf_ok hy hl
    refine ⟨s, i, ?_, hc⟩
    simp [toward, Ne.symm (hv p), e]

end Verif.Inplace
