import Verif.Props.ResolveIndex
/-!
# Links for entities and back

C42: `substitute_objects` undoes `substitute_links` (util/impl.py:270-331). Model: `Verif.Model.Substitute`.
-/

set_option linter.unusedSimpArgs false
set_option linter.unusedVariables false
set_option linter.unusedSectionVars false

namespace Verif.Substitute
open Verif.Json Verif.Py Verif.Value Verif.Traverse Verif.Schema

section
variable {env : Env} {index : Dict (String × String) Nat} {m : Mem} {scope : Option String} {fallback : Bool}

/-- If entities were replaced by links that the index resolves to them, and the index knows no other link in the value, the value is what the result
means. -/
theorem res_back {F : Nat → V} {v w : V} (hv : Json.wf v) (tv : Json.noTuple v) (hw : Json.wf w) (tw : Json.noTuple w)
    (hF : ∀ o, V.ref o ∈ v.subs → ∃ s i, F o = .link s i ∧ Dict.get? index (s, i) = some o)
    (hl : ∀ s i, V.link s i ∈ v.subs → Dict.get? index (s, i) = none) (e : nf w = nf (tr F .link v)) : Res index w v := by
  have hp : ∀ s i, pointerLike (meaning index s i) := pointerLike_meaning index
  have h1 : Json.wf (tr F .link v) := by
    refine wf_tr _ _ v hv (fun o ho => ?_) (fun _ _ _ => by simp [Json.wf])
    obtain ⟨s, i, e, _⟩ := hF o ho
    rw [e]
    simp [Json.wf]
  have h2 : tr .ref (meaning index) (tr F .link v) = tr .ref .link v := by
    refine tr_tr v hv (fun o ho => ?_) (fun s i hs => ?_)
    · obtain ⟨s, i, e, h⟩ := hF o ho
      rw [e]
      simp [tr, meaning, h]
    · simp [tr, meaning, hl s i hs]
  refine alike_nf (f := .ref) (g := meaning index) w v hw tw hv tv (fun _ _ => trivial) (fun s i _ => hp s i) ?_
  rw [tr_nf (f := .ref) (g := meaning index) w hw (fun _ _ => trivial) (fun s i _ => hp s i), e,
    ← tr_nf (f := .ref) (g := meaning index) (tr F .link v) h1 (fun _ _ => trivial) (fun s i _ => hp s i), h2, nf_tr v hv]

theorem ress_back {F : Nat → V} : ∀ {l l' : List V}, (∀ v ∈ l, Json.wf v ∧ Json.noTuple v) → (∀ v ∈ l', Json.wf v ∧ Json.noTuple v) →
    (∀ v ∈ l, (∀ o, V.ref o ∈ v.subs → ∃ s i, F o = .link s i ∧ Dict.get? index (s, i) = some o) ∧
      ∀ s i, V.link s i ∈ v.subs → Dict.get? index (s, i) = none) → l'.map nf = (l.map (tr F .link)).map nf → Ress index l' l
  | [], l', _, _, _, e => by simp at e; subst e; simp [Ress, alikes]
  | v :: vs, [], _, _, _, e => by simp at e
  | v :: vs, w :: ws, h1, h2, h3, e => by
    simp only [List.map_cons, List.cons.injEq] at e
    simp only [Ress, alikes]
    obtain ⟨a, b⟩ := h1 v (by simp)
    obtain ⟨c, d⟩ := h2 w (by simp)
    obtain ⟨f, g⟩ := h3 v (by simp)
    exact ⟨v, vs, rfl, res_back a b c d f g e.1,
      ress_back (fun v hv => h1 v (by simp [hv])) (fun v hv => h2 v (by simp [hv])) (fun v hv => h3 v (by simp [hv])) e.2⟩

/-- the index gives for the link of each entity in `v` that entity, and it knows no link that is in `v` already -/
structure TellsApart (env : Env) (index : Dict (String × String) Nat) (m : Mem) (scope : Option String) (fallback : Bool) (v : V) : Prop where
  linkable : ∀ p, V.ref p ∈ v.subs → ∃ y, m[p]? = some y ∧ Linkable env.lower scope fallback y
  found : ∀ p y s i, V.ref p ∈ v.subs → m[p]? = some y → toLink env.lower scope fallback y = .ok (.link s i) → Dict.get? index (s, i) = some p
  foreign : ∀ s i, V.link s i ∈ v.subs → Dict.get? index (s, i) = none

theorem TellsApart.back {v : V} (h : TellsApart env index m scope fallback v) (o : Nat) (ho : V.ref o ∈ v.subs) :
    ∃ s i, linkOf env.lower scope fallback m o = .link s i ∧ Dict.get? index (s, i) = some o := by
  obtain ⟨y, hy, hl⟩ := h.linkable o ho
  obtain ⟨s, i, e1, e2, _⟩ := linkOf_ok hy hl
  exact ⟨s, i, e2, h.found o y s i ho hy e1⟩

/-- no link in the entities nested in `v` is known to the index -/
def NoLinksInside (index : Dict (String × String) Nat) (m : Mem) (v : V) : Prop := ∀ o x, m[o]? = some x → Nested m v o → ∀ e ∈ asDict m x, ∀ s i,
  V.link s i ∈ e.2.subs → Dict.get? index (s, i) = none

/-- C42, for anything but an entity: `substitute_objects` with an index that tells the entities apart restores from `substitute_links(v)` a copy of `v`: all
values and links are as in `v`, and for each entity there is a copy, which has the class and the attributes of the original, with copies of the entities
in them, and so on. Neither function touches existing entities.

Missing: `inplace=True` (C62); values with tuples, and entities nested in themselves, see C35. -/
theorem C42_values_partial {v : V} (hc : Copyable env m v) (ha : ∀ o, Nested m v o → ¬ Inside m o o) (hu : TellsApart env index m scope fallback v)
    (hl : NoLinksInside index m v) (hnot : ∀ o, v ≠ .ref o) (k : Nat) (hk : m.length < k) :
    ∃ w, substituteLinks env scope fallback m v = .ok (w, m) ∧ (∀ o, V.ref o ∉ w.subs) ∧ ∃ w' m' ψ, substituteObjects env index k m w = .ok (w', m') ∧
      (∀ p, p < m.length → m'[p]? = m[p]?) ∧ AllCopies m ψ m.length m' ∧ alike (CopyOf ψ) SameLink v w' ∧
      ∀ p, V.ref p ∈ w'.subs → m.length ≤ p ∧ p < m'.length := by
  obtain ⟨w, st', h1, h2, h3, h4⟩ := sub_links (env := env) (m := m) (scope := scope) (fallback := fallback) (top := v)
    (f := linkOf env.lower scope fallback m) (expandE env (linkRepl env.lower scope fallback v) 1) v (by
      refine ⟨hc.wf, hc.ok, hc.noTuple, fun o ho => ⟨fun e => hnot o e.symm, ?_⟩⟩
      obtain ⟨y, hy, hl⟩ := hu.linkable o ho
      obtain ⟨s, i, e1, e2, _⟩ := linkOf_ok hy hl
      exact ⟨y, s, i, hy, e1, e2⟩) { visited := [], mem := m } rfl (Vis.nil _)
  refine ⟨w, by unfold substituteLinks substitute; simp only [h1, h2], fun o => noRef_subs w h4.clean.wf h4.clean.noRef o, ?_⟩
  have hr : Res index w v := res_back hc.wf hc.noTuple h4.clean.wf h4.clean.noTuple hu.back hu.foreign h4.eq
  have hR := Resolution.plain h4.clean.wf h4.clean.noTuple hr hc ha hl
  have hT : Takes env index m (Nested m v) (size m) k w v := ⟨hR.wf, hR.noTuple, hc.wf, hc.noTuple, hc.ok, hr, fun q hq =>
    ⟨.inl (hr.means hR.wf hq), by have := size_le m q; omega⟩⟩
  obtain ⟨w', m', ψ, e, hC, hg⟩ := substitute_objects_copy hR.source hT
  refine ⟨w', m', ψ, e, hC.old, ?_, alike_img hg.img hc.wf hc.noTuple hg.wf hg.noTuple, hg.refs⟩
  intro p z hp hz
  obtain ⟨x, hx, hn, ht⟩ := hC.twin p z hp hz
  refine ⟨x, hx, ht.cls, ht.names, ht.alike ?_ (hc.plain _ x hx hn), fun e he q hq => (ht.plain e he).2.2 q hq⟩
  obtain ⟨fs, e, n1, n2, n3⟩ := asDict_names hc.typed hx
  rw [e]
  simp only [List.map_cons, List.nodup_cons]
  exact ⟨n2, n1⟩

/-! ## Entities -/

/-- the number of an entity of `m ++ [m[t]]` in `m` -/
def back (n t a : Nat) : Nat := if a = n then t else a

theorem appended (hT : WellTyped env m) {t : Nat} {x : EObj} (hx : m[t]? = some x) : WellTyped env (m ++ [x]) ∧
    (∀ a z, (m ++ [x])[a]? = some z → m[back m.length t a]? = some z ∧ asDict (m ++ [x]) z = asDict m z) := by
  obtain ⟨vals, own, hs, hown⟩ := hT t x hx
  refine ⟨hT.append hs hown, fun a z hz => ?_⟩
  have h1 : m[back m.length t a]? = some z := by
    unfold back
    split
    · rename_i e
      subst e
      simp at hz
      subst hz
      exact hx
    · rename_i e
      rw [List.getElem?_append] at hz
      split at hz
      · exact hz
      · rename_i h
        rw [List.getElem?_eq_none (by simp; omega)] at hz
        cases hz
  obtain ⟨vals', own', hs', _⟩ := hT _ z h1
  exact ⟨h1, asDict_append hs' _⟩

theorem holds_back (hT : WellTyped env m) {t : Nat} {x : EObj} (hx : m[t]? = some x) {a p : Nat} (h : Holds (m ++ [x]) a p) : Holds m (back m.length t a) p := by
  obtain ⟨z, hz, e, he, hp⟩ := h
  obtain ⟨h1, h2⟩ := (appended hT hx).2 a z hz
  rw [h2] at he
  exact ⟨z, h1, e, he, hp⟩

theorem inside_back (hc : Copyable env m (.ref t)) {x : EObj} (hx : m[t]? = some x) {a p : Nat} (h : Inside (m ++ [x]) a p) :
    Nested m (.ref t) (back m.length t a) → Inside m (back m.length t a) p := by
  induction h with
  | child h => intro _; exact .child (holds_back hc.typed hx h)
  | @deeper a q p h _ ih =>
    intro hn
    have h1 := holds_back hc.typed hx h
    have h2 := hn.step h1
    have h3 := hc.there q h2
    have h4 : back m.length t q = q := by unfold back; rw [if_neg (by omega)]
    rw [h4] at ih
    exact .deeper h1 (ih h2)

theorem nested_back (hc : Copyable env m (.ref t)) {x : EObj} (hx : m[t]? = some x) {o : Nat} (h : Nested (m ++ [x]) (.ref m.length) o) :
    o = m.length ∨ (o < m.length ∧ Nested m (.ref t) o) := by
  rcases h with h | ⟨q, hq, h⟩
  · simp [V.subs] at h
    exact .inl h
  · simp [V.subs] at hq
    subst hq
    have e : back m.length t m.length = t := by simp [back]
    have := inside_back hc hx h (by rw [e]; exact .inl (self_mem_subs _))
    rw [e] at this
    have hn : Nested m (.ref t) o := .inr ⟨t, self_mem_subs _, this⟩
    exact .inr ⟨hc.there o hn, hn⟩

/-- C42, for an entity: `substitute_links(x)` is a new entity without pointers, and `substitute_objects` makes of it an entity that is a copy of `x`: of the
same class and with the same attributes, the entities in them replaced by copies, and so on. Neither function touches existing entities.

Missing: as for `C42_values_partial`. -/
theorem C42_entity_partial {t : Nat} {x : EObj} (hc : Copyable env m (.ref t)) (hx : m[t]? = some x) (ha : ∀ o, Nested m (.ref t) o → ¬ Inside m o o)
    (hu : ∀ e ∈ asDict m x, TellsApart env index m scope fallback e.2) (hl : NoLinksInside index m (.ref t)) (k : Nat) (hk : m.length + 1 < k) :
    ∃ y, substituteLinks env scope fallback m (.ref t) = .ok (.ref m.length, m ++ [y]) ∧ (∀ e ∈ asDict (m ++ [y]) y, ∀ p, V.ref p ∉ e.2.subs) ∧
      ∃ p m' ψ, substituteObjects env index k (m ++ [y]) (.ref m.length) = .ok (.ref p, m') ∧ (∀ q, q < m.length → m'[q]? = m[q]?) ∧
        AllCopies m ψ (m.length + 1) m' ∧ ψ p = t ∧ m.length < p ∧ p < m'.length := by
  have hself : Nested m (.ref t) t := .inl (self_mem_subs _)
  have hplain := hc.plain t x hx hself
  obtain ⟨y, h1, hcopy⟩ := strip_copied env m scope fallback hc.typed t x hx hplain (by
    intro f hf p hp
    refine ⟨fun e => ?_, (hu f hf).linkable p hp⟩
    subst e
    exact ha p hself (.child ⟨x, hx, f, hf, hp⟩))
  obtain ⟨hnames, hnf, hclean⟩ := hcopy.attrs (Grows.append m [y]) hplain
  have hT1 : WellTyped env (m ++ [y]) := hcopy.wellTyped hc.typed
  obtain ⟨hT2, hget⟩ := appended hc.typed hx
  have hM : (m ++ [x])[m.length]? = some x := by simp
  have hxd : asDict (m ++ [x]) x = asDict m x := (hget _ x hM).2
  have hclean' : ∀ e ∈ asDict (m ++ [y]) y, Clean env m e.2 := fun e he => hclean e.2 (List.mem_map_of_mem he)
  have hcM : Copyable env (m ++ [x]) (.ref m.length) := by
    refine ⟨hT2, fun o ho => ?_, by simp [Json.wf], by simp [Json.noTuple], by simp [okV], fun o z hz ho e he => ?_⟩
    · rcases nested_back hc hx ho with h | h
      · simp [h]
      · simp; omega
    · obtain ⟨g1, g2⟩ := hget o z hz
      rw [g2] at he
      rcases nested_back hc hx ho with h | ⟨h, hn⟩
      · subst h
        simp [back] at g1
        exact hc.plain t z g1 hself e he
      · have : back m.length t o = o := by unfold back; rw [if_neg (by omega)]
        rw [this] at g1
        exact hc.plain o z g1 hn e he
  have hR : Resolution env index (m ++ [y]) (m ++ [x]) (.ref m.length) (.ref m.length) := by
    refine ⟨hT1, by simp [Json.wf], by simp [Json.noTuple], by simp [Res, alike], hcM, fun o ho hi => ?_, fun o z hz ho => ?_⟩
    · rcases nested_back hc hx ho with h | ⟨h, hn⟩
      · subst h
        have e : back m.length t m.length = t := by simp [back]
        have := inside_back hc hx hi (by rw [e]; exact hself)
        rw [e] at this
        exact absurd (hc.there m.length (.inr ⟨t, self_mem_subs _, this⟩)) (Nat.lt_irrefl _)
      · have e : back m.length t o = o := by unfold back; rw [if_neg (by omega)]
        have := inside_back hc hx hi (by rw [e]; exact hn)
        rw [e] at this
        exact ha o hn this
    · rcases nested_back hc hx ho with h | ⟨h, hn⟩
      · subst h
        rw [hM] at hz
        cases hz
        refine ⟨y, by simp, (hcopy.uids.1).symm, by rw [hxd, hnames], ?_, fun e he => ⟨(hclean' e he).wf, (hclean' e he).noTuple⟩⟩
        rw [hxd]
        refine ress_back (F := linkOf env.lower scope fallback m) ?_ ?_ ?_ hnf
        · intro v hv
          obtain ⟨e, he, rfl⟩ := List.mem_map.1 hv
          exact hplain e he
        · intro v hv
          exact ⟨(hclean v hv).wf, (hclean v hv).noTuple⟩
        · intro v hv
          obtain ⟨e, he, rfl⟩ := List.mem_map.1 hv
          exact ⟨(hu e he).back, (hu e he).foreign⟩
      · obtain ⟨g1, g2⟩ := hget o z hz
        have e : back m.length t o = o := by unfold back; rw [if_neg (by omega)]
        rw [e] at g1
        obtain ⟨vals, own, hs, _⟩ := hc.typed o z g1
        have g3 : asDict (m ++ [y]) z = asDict m z := asDict_append hs _
        refine ⟨z, get_append g1 _, rfl, by rw [g2, g3], ?_, ?_⟩
        · rw [g2, g3]
          refine Ress.refl (fun v hv => ?_)
          obtain ⟨e, he, rfl⟩ := List.mem_map.1 hv
          exact ⟨(hc.plain o z g1 hn e he).1, (hc.plain o z g1 hn e he).2, hl o z g1 hn e he⟩
        · rw [g3]
          exact hc.plain o z g1 hn
  have hT : Takes env index (m ++ [x]) (Nested (m ++ [x]) (.ref m.length)) (size (m ++ [x])) k (.ref m.length) (.ref m.length) :=
    ⟨hR.wf, hR.noTuple, hcM.wf, hcM.noTuple, hcM.ok, hR.resolved, fun q hq =>
      ⟨.inl (hR.resolved.means hR.wf hq), by have := size_le (m ++ [x]) q; simp at this; omega⟩⟩
  obtain ⟨w', m', ψ, e, hC, hg⟩ := substitute_objects_copy hR.source hT
  have hw := alike_img hg.img hcM.wf hcM.noTuple hg.wf hg.noTuple
  simp only [alike] at hw
  obtain ⟨p, rfl, hp⟩ := hw
  have hrefs := hg.refs p (self_mem_subs _)
  simp only [List.length_append, List.length_cons, List.length_nil, Nat.zero_add] at hrefs
  refine ⟨y, h1, fun e he p => noRef_subs e.2 (hclean' e he).wf (hclean' e he).noRef p, p, m', fun q => back m.length t (ψ q), e, fun q hq => ?_, ?_,
    by simp [hp, back], by omega, hrefs.2⟩
  · rw [hC.old q (by simp; omega), List.getElem?_append_left hq]
  · intro q z hq hz
    obtain ⟨x', hx', hn, ht⟩ := hC.twin q z (by simpa using hq) hz
    obtain ⟨g1, g2⟩ := hget _ x' hx'
    refine ⟨x', g1, ht.cls, by rw [ht.names, g2], ?_, fun e he q' hq' => by simpa using (ht.plain e he).2.2 q' hq'⟩
    have hnd : ((asDict (m ++ [x]) x').map Prod.fst).Nodup := by
      obtain ⟨fs, e, n1, n2, n3⟩ := asDict_names hT2 hx'
      rw [e]
      simp only [List.map_cons, List.nodup_cons]
      exact ⟨n2, n1⟩
    have := ht.alike hnd (hcM.plain _ x' hx' hn)
    rw [g2] at this
    refine alikes_mono _ _ (fun o w ho hw => ?_) (fun _ _ _ _ h => h) this
    obtain ⟨r, rfl, hr⟩ := hw
    refine ⟨r, rfl, ?_⟩
    obtain ⟨v, hv, hov⟩ := mem_subss.1 ho
    obtain ⟨f, hf, rfl⟩ := List.mem_map.1 hv
    have hlt : o < m.length := by
      refine hc.there o (Nested.step (o := back m.length t (ψ q)) ?_ ⟨x', g1, f, hf, hov⟩)
      rcases nested_back hc hx hn with h | ⟨h, hn⟩
      · rw [h]
        simp only [back, if_true]
        exact hself
      · have e : back m.length t (ψ q) = ψ q := by unfold back; rw [if_neg (by omega)]
        rw [e]
        exact hn
    simp only [back, hr]
    rw [if_neg (by omega)]

/-! ## With the index of a collection -/

/-- the entities of the collection have different ids -/
def UniqueIds (m : Mem) (coll : V) : Prop := ∀ o o' u, InCollection m coll o → InCollection m coll o' → HasId m o u → HasId m o' u → o = o'

/-- every entity in `v` is in the collection and has an id; every link in `v` is to something that is not in the collection -/
def Covered (m : Mem) (coll v : V) : Prop := (∀ p, V.ref p ∈ v.subs → InCollection m coll p ∧ ∃ u, HasId m p u) ∧
  ∀ s i, V.link s i ∈ v.subs → ∀ o, InCollection m coll o → ¬ HasId m o (s, i)

theorem Indexes.none {coll : V} (hI : Indexes m coll index) {s i : String} (h : ∀ o, InCollection m coll o → ¬ HasId m o (s, i)) : Dict.get? index (s, i) = none := by
  cases e : Dict.get? index (s, i) with
  | none => rfl
  | some o =>
    obtain ⟨h1, h2⟩ := (hI s i).1 o e
    exact absurd h2 (h o h1)

theorem Indexes.tellsApart {coll v : V} (hI : Indexes m coll index) (hd : UniqueIds m coll) (hv : Covered m coll v) : TellsApart env index m .none fallback v := by
  refine ⟨fun p hp => ?_, fun p y s i hp hy hl => ?_, fun s i hs => hI.none (hv.2 s i hs)⟩
  · obtain ⟨_, u, y, hy, hu⟩ := hv.1 p hp
    exact ⟨y, hy, fun e => by rw [e] at hu; simp at hu, .inl rfl⟩
  · obtain ⟨h1, _⟩ := hv.1 p hp
    have hid : HasId m p (s, i) := by
      unfold toLink at hl
      split at hl
      · cases hl
      · rename_i first j rest hu
        simp only [linkScope, hu, List.find?_cons_of_pos, decide_true, Except.ok.injEq, V.link.injEq] at hl
        obtain ⟨rfl, rfl⟩ := hl
        exact ⟨y, hy, by rw [hu]; simp⟩
    cases e : Dict.get? index (s, i) with
    | none => exact absurd hid ((hI s i).2 e p h1)
    | some o =>
      obtain ⟨h2, h3⟩ := (hI s i).1 o e
      rw [hd o p _ h2 h1 h3 hid]

/-- C42 with `index = make_index(coll)`: if the entities of the collection have different ids and those in `v` are among them,
`substitute_objects(substitute_links(v), index)` is a copy of `v`. For anything but an entity.

Missing: as for `C42_values_partial`; and a scope given to `substitute_links` (with another spelling than that of the entities the links are not in the
index, see `C42_scope_counterexample`). -/
theorem C42_collection_partial {v coll : V} (flat : NoListInTuple m true coll) (hd : UniqueIds m coll) (hv : Covered m coll v) (hc : Copyable env m v)
    (ha : ∀ o, Nested m v o → ¬ Inside m o o)
    (hl : ∀ o x, m[o]? = some x → Nested m v o → ∀ e ∈ asDict m x, ∀ s i, V.link s i ∈ e.2.subs → ∀ p, InCollection m coll p → ¬ HasId m p (s, i))
    (hnot : ∀ o, v ≠ .ref o) (k : Nat) (hk : m.length < k) :
    ∃ n index w, (∀ n' ≥ n, makeIndex n' m coll = some (.ok index)) ∧ substituteLinks env .none true m v = .ok (w, m) ∧ (∀ o, V.ref o ∉ w.subs) ∧
      ∃ w' m' ψ, substituteObjects env index k m w = .ok (w', m') ∧ (∀ p, p < m.length → m'[p]? = m[p]?) ∧ AllCopies m ψ m.length m' ∧
        alike (CopyOf ψ) SameLink v w' ∧ ∀ p, V.ref p ∈ w'.subs → m.length ≤ p ∧ p < m'.length := by
  obtain ⟨n, index, h1, hI⟩ := C35_index_partial m coll flat
  obtain ⟨w, h2, h3, h4⟩ := C42_values_partial (index := index) (scope := .none) (fallback := true) hc ha (hI.tellsApart hd hv)
    (fun o x hx hn e he s i hs => hI.none (hl o x hx hn e he s i hs)) hnot k hk
  exact ⟨n, index, w, h1, h2, h3, h4⟩

/-- C42 with `index = make_index(coll)`, for an entity -/
theorem C42_entity_collection_partial {t : Nat} {x : EObj} {coll : V} (flat : NoListInTuple m true coll) (hd : UniqueIds m coll) (hc : Copyable env m (.ref t))
    (hx : m[t]? = some x) (hv : ∀ e ∈ asDict m x, Covered m coll e.2) (ha : ∀ o, Nested m (.ref t) o → ¬ Inside m o o)
    (hl : ∀ o x, m[o]? = some x → Nested m (.ref t) o → ∀ e ∈ asDict m x, ∀ s i, V.link s i ∈ e.2.subs → ∀ p, InCollection m coll p → ¬ HasId m p (s, i))
    (k : Nat) (hk : m.length + 1 < k) :
    ∃ n index y, (∀ n' ≥ n, makeIndex n' m coll = some (.ok index)) ∧ substituteLinks env .none true m (.ref t) = .ok (.ref m.length, m ++ [y]) ∧
      (∀ e ∈ asDict (m ++ [y]) y, ∀ p, V.ref p ∉ e.2.subs) ∧
      ∃ p m' ψ, substituteObjects env index k (m ++ [y]) (.ref m.length) = .ok (.ref p, m') ∧ (∀ q, q < m.length → m'[q]? = m[q]?) ∧
        AllCopies m ψ (m.length + 1) m' ∧ ψ p = t ∧ m.length < p ∧ p < m'.length := by
  obtain ⟨n, index, h1, hI⟩ := C35_index_partial m coll flat
  obtain ⟨y, h2, h3, h4⟩ := C42_entity_partial (index := index) (scope := .none) (fallback := true) hc hx ha (fun e he => hI.tellsApart hd (hv e he))
    (fun o x hx hn e he s i hs => hI.none (hl o x hx hn e he s i hs)) k hk
  exact ⟨n, index, y, h1, h2, h3, h4⟩

end

/-! ## Examples -/

/-- all entities, for use as a collection -/
def everything (m : Mem) : V := .list ((List.range m.length).map .ref)

theorem uniqueIds_of {m : Mem} {coll : V} (h : ((List.range m.length).all (fun o => (List.range m.length).all (fun o' => decide (o = o') || match m[o]?, m[o']? with
    | some x, some x' => x.uids.all (fun u => decide (u ∉ x'.uids))
    | _, _ => true))) = true) : UniqueIds m coll := by
  rintro o o' u ⟨h1, _⟩ ⟨h2, _⟩ ⟨x, hx, hu⟩ ⟨x', hx', hu'⟩
  have := List.all_eq_true.1 (List.all_eq_true.1 h o (List.mem_range.2 h1)) o' (List.mem_range.2 h2)
  simp only [hx, hx', Bool.or_eq_true, decide_eq_true_eq, List.all_eq_true] at this
  rcases this with e | h
  · exact e
  · exact absurd hu' (h u hu)

theorem noLinks_of {m : Mem} (h : m.all (fun x => (asDict m x).all (fun e => e.2.subs.all (fun w => match w with | .link _ _ => false | _ => true))) = true)
    (o : Nat) (x : EObj) (hx : m[o]? = some x) (e : String × V) (he : e ∈ asDict m x) (s i : String) (hs : V.link s i ∈ e.2.subs) : False := by
  have := List.all_eq_true.1 (List.all_eq_true.1 (List.all_eq_true.1 h x (List.mem_of_getElem? hx)) e he) _ hs
  cases this

theorem ids_of {m : Mem} (h : m.all (fun x => decide (x.uids ≠ [])) = true) {o : Nat} (ho : o < m.length) : ∃ u, HasId m o u := by
  have := List.all_eq_true.1 h m[o] (List.getElem_mem ho)
  simp only [decide_eq_true_eq] at this
  obtain ⟨u, hu⟩ := List.exists_mem_of_ne_nil _ this
  exact ⟨u, m[o], List.getElem?_eq_getElem ho, hu⟩

theorem inEverything {m : Mem} {o : Nat} (h : o < m.length) : InCollection m (everything m) o :=
  ⟨h, .step (.refl _) (.list (List.mem_map.2 ⟨o, List.mem_range.2 h, rfl⟩))⟩

/-- the hypotheses of `C42_collection_partial` and `C42_entity_collection_partial` are met: an ingredient run, alone and in a list with its spec -/
example : NoListInTuple sample true (everything sample) ∧ UniqueIds sample (everything sample) ∧
    Covered sample (everything sample) (.list [.ref 6, .ref 2, .link "id" "no"]) ∧ Copyable plainEnv sample (.list [.ref 6, .ref 2, .link "id" "no"]) ∧
    Copyable plainEnv sample (.ref 6) ∧ (∀ v o, Nested sample v o → ¬ Inside sample o o) ∧
    (∃ x, sample[6]? = some x ∧ ∀ e ∈ asDict sample x, Covered sample (everything sample) e.2) ∧
    ∀ (o : Nat) (x : EObj), sample[o]? = some x → ∀ e ∈ asDict sample x, ∀ s i, V.link s i ∉ e.2.subs := by
  have hids : sample.all (fun x => decide (x.uids ≠ [])) = true := by decide +kernel
  have hnl : sample.all (fun x => (asDict sample x).all (fun e => e.2.subs.all (fun w => match w with | .link _ _ => false | _ => true))) = true := by decide +kernel
  have hrefs : sample.all (fun x => (asDict sample x).all (fun e => e.2.subs.all (fun w => match w with | .ref p => decide (p < sample.length) | _ => true))) = true := by
    decide +kernel
  refine ⟨flat_of_noTuple (fun o x hx f hf => ?_) (by decide +kernel), uniqueIds_of (by decide +kernel), ⟨fun p hp => ?_, fun s i hs o _ hid => ?_⟩, ?_, ?_, ?_, ?_, ?_⟩
  · have : sample.all (fun x => x.fields.all (fun f => tidy f.2)) = true := by decide +kernel
    exact List.all_eq_true.1 (List.all_eq_true.1 this x (List.mem_of_getElem? hx)) f hf
  · have : p < sample.length := by
      simp [V.subs, subss] at hp
      rw [sample_eq.2]
      omega
    exact ⟨inEverything this, ids_of hids this⟩
  · simp [V.subs, subss] at hs
    obtain ⟨rfl, rfl⟩ := hs
    obtain ⟨x, hx, hu⟩ := hid
    have : sample.all (fun x => decide (("id", "no") ∉ x.uids)) = true := by decide +kernel
    exact of_decide_eq_true (List.all_eq_true.1 this x (List.mem_of_getElem? hx)) hu
  · refine copyable_built plainEnv_sane sample_built ?_ (by decide +kernel) ?_ (by decide +kernel)
    · refine Made.list _ (fun v hv => ?_)
      simp at hv
      rcases hv with rfl | rfl | rfl
      · exact Made.ref _
      · exact Made.ref _
      · exact Made.link _ _
    · intro o ho
      simp [V.subs, subss] at ho
      rw [sample_eq.2]
      omega
  · refine copyable_built plainEnv_sane sample_built (Made.ref _) (by decide +kernel) ?_ (by decide +kernel)
    intro o ho
    simp [V.subs] at ho
    rw [sample_eq.2]
    omega
  · intro v o hn
    exact C57_no_cycle (v := v) (sample_built.wellTyped plainEnv_sane) (fun o x hx _ => freeAll (by decide +kernel) o x hx) o hn
  · have hlt : 6 < sample.length := by rw [sample_eq.2]; omega
    refine ⟨sample[6], List.getElem?_eq_getElem hlt, fun e he => ⟨fun p hp => ?_, fun s i hs => ?_⟩⟩
    · have := List.all_eq_true.1 (List.all_eq_true.1 (List.all_eq_true.1 hrefs _ (List.getElem_mem hlt)) e he) _ hp
      simp only [decide_eq_true_eq] at this
      exact ⟨inEverything this, ids_of hids this⟩
    · exact absurd (noLinks_of hnl 6 _ (List.getElem?_eq_getElem hlt) e he s i hs) id
  · intro o x hx e he s i hs
    exact noLinks_of hnl o x hx e he s i hs

/-- C42 fails for a scope in another spelling than that of the uids: they are looked up without regard to case, but the index is not -/
theorem C42_scope_counterexample : ∃ (lower : String → String) (m : Mem) (index : Dict (String × String) Nat), makeIndex 60 m (.ref 0) = some (.ok index) ∧
    substituteLinks { plainEnv with lower := lower } (some "ID") true m (.list [.ref 0]) = .ok (.list [.link "ID" "x"], m) ∧
    substituteObjects { plainEnv with lower := lower } index 9 m (.list [.link "ID" "x"]) = .ok (.list [.link "ID" "x"], m) := by
  refine ⟨fun s => if s = "ID" then "id" else s, [{ cls := .processRun, uids := [("id", "x")], fields := [] }], [(("id", "x"), 0)], ?_, ?_, ?_⟩ <;> decide +kernel

/-- C42 fails if two entities have the same id: the links to both become copies of the same one -/
theorem C42_ambiguous_counterexample : ∃ (m : Mem) (index : Dict (String × String) Nat), makeIndex 60 m (.list [.ref 0, .ref 1]) = some (.ok index) ∧
    substituteLinks plainEnv none true m (.list [.ref 0, .ref 1]) = .ok (.list [.link "id" "x", .link "id" "x"], m) ∧
    Dict.get? index ("id", "x") = some 1 := by
  refine ⟨[{ cls := .processRun, uids := [("id", "x")], fields := [] }, { cls := .materialRun, uids := [("id", "x")], fields := [] }], [(("id", "x"), 1)], ?_, ?_, ?_⟩ <;> decide +kernel

end Verif.Substitute
