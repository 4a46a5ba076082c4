import Verif.Props.StripEntity
import Verif.Props.Built
/-!
# C41: `substitute_links`
-/

set_option linter.unusedSimpArgs false
set_option linter.unusedVariables false
set_option linter.unusedSectionVars false

namespace Verif.Substitute
open Verif.Py Verif.Value Verif.Schema Verif.Json

/-! ## The specification -/

mutual
/-- The second value is the first, with entities and links replaced as `L` and `G` say: otherwise they are equal. (Numbers may have
another type and the entries of dictionaries another order, as for `==` in Python.) -/
def alike (L : Nat → V → Prop) (G : String → String → V → Prop) : V → V → Prop
  | .list l, w => ∃ l', w = .list l' ∧ alikes L G l l'
  | .tuple l, w => ∃ l', w = .tuple l' ∧ alikes L G l l'
  | .dict ks vs, w => ∃ ks' vs', ∃ ps : List (V × V), w = .dict ks' vs' ∧ ks'.length = vs'.length ∧ ps.Perm (ks'.zip vs') ∧ ps.map Prod.fst = ks ∧
      alikes L G vs (ps.map Prod.snd)
  | .obj t ns vs, w => ∃ vs', w = .obj t ns vs' ∧ alikes L G vs vs'
  | .link s i, w => G s i w
  | .ref o, w => L o w
  | .none, w => w = .none
  | .str s, w => w = .str s
  | .bool b, w => num w = some (if b then 1 else 0)
  | .int i, w => num w = some (i : Rat)
  | .float q, w => num w = some q
def alikes (L : Nat → V → Prop) (G : String → String → V → Prop) : List V → List V → Prop
  | [], l' => l' = []
  | v :: vs, l' => ∃ w ws, l' = w :: ws ∧ alike L G v w ∧ alikes L G vs ws
end

/-- an entity or a link -/
def pointerLike : V → Prop
  | .ref _ => True
  | .link _ _ => True
  | _ => False

theorem nf_pointer {u v : V} (hv : pointerLike v) (h : nf u = nf v) : u = v := by
  cases v <;> simp [pointerLike] at hv
  · exact nf_link.1 (by rw [h]; simp [nf, cn, tr])
  · exact nf_ref.1 (by rw [h]; simp [nf, cn, tr])

theorem perm_unmap {α β : Type} (φ : α → β) {P Q : List β} (h : P.Perm Q) : ∀ L : List α, Q = L.map φ → ∃ L' : List α, L'.Perm L ∧ P = L'.map φ := by
  induction h with
  | nil => intro L e; exact ⟨L, List.Perm.refl _, e⟩
  | cons x _ ih =>
    intro L e
    cases L with
    | nil => simp at e
    | cons a L =>
      simp only [List.map_cons, List.cons.injEq] at e
      obtain ⟨L', h1, h2⟩ := ih L e.2
      exact ⟨a :: L', h1.cons a, by simp [h2, e.1]⟩
  | swap x y l =>
    intro L e
    match L, e with
    | a :: b :: L, e =>
      simp only [List.map_cons, List.cons.injEq] at e
      exact ⟨b :: a :: L, List.Perm.swap a b L, by simp [e.1, e.2.1, e.2.2]⟩
    | [], e => simp at e
    | [_], e => simp at e
  | trans _ _ ih1 ih2 =>
    intro L e
    obtain ⟨L2, p2, e2⟩ := ih2 L e
    obtain ⟨L1, p1, e1⟩ := ih1 L2 e2
    exact ⟨L1, p1.trans p2, e1⟩

section
variable {f : Nat → V} {g : String → String → V}

mutual
theorem alike_nf (v w : V) (hv : wf v) (tv : noTuple v) (hw : wf w) (tw : noTuple w) (hf : ∀ o, V.ref o ∈ v.subs → pointerLike (f o))
    (hg : ∀ s i, V.link s i ∈ v.subs → pointerLike (g s i)) (h : nf w = nf (tr f g v)) :
    alike (fun o w => w = f o) (fun s i w => w = g s i) v w := by
  cases v with
  | none => simp only [alike]; exact nf_none.1 (by rw [h]; simp [nf, cn, tr])
  | str s => simp only [alike]; exact nf_str.1 (by rw [h]; simp [nf, cn, tr])
  | bool b => simp only [alike]; exact nf_num.1 (by rw [h]; simp [nf, cn, tr])
  | int i => simp only [alike]; exact nf_num.1 (by rw [h]; simp [nf, cn, tr])
  | float q => simp only [alike]; exact nf_num.1 (by rw [h]; simp [nf, cn, tr])
  | link s i => simp only [alike, tr] at *; exact nf_pointer (hg s i (self_mem_subs _)) h
  | ref o => simp only [alike, tr] at *; exact nf_pointer (hf o (self_mem_subs _)) h
  | tuple l => simp [noTuple] at tv
  | list l =>
    simp only [tr, trs_eq] at h
    rw [nf_list] at h
    obtain ⟨us, rfl, hus⟩ := nf_list_inv tw h
    simp only [wf, noTuple] at hv tv hw tw
    simp only [alike]
    exact ⟨us, rfl, alikes_nf l us hv tv hw tw (fun o ho => hf o (by simp [V.subs, ho])) (fun s i ho => hg s i (by simp [V.subs, ho])) hus⟩
  | obj t ns vs =>
    simp only [tr, trs_eq] at h
    rw [nf_obj] at h
    obtain ⟨us, rfl, hus⟩ := nf_obj_inv h
    simp only [wf, noTuple] at hv tv hw tw
    simp only [alike]
    exact ⟨us, rfl, alikes_nf vs us hv.2 tv hw.2 tw (fun o ho => hf o (by simp [V.subs, ho])) (fun s i ho => hg s i (by simp [V.subs, ho])) hus⟩
  | dict ks vs =>
    simp only [wf, noTuple] at hv tv
    obtain ⟨⟨hl, names, hs, hnd, _⟩, hv⟩ := hv
    simp only [tr, trs_eq] at h
    rw [nf_sortDict hs] at h
    cases w with
    | dict ks' vs' =>
      simp only [wf, noTuple] at hw tw
      obtain ⟨⟨hl', names', hs', hnd', _⟩, hw⟩ := hw
      rw [nf_dict hs'] at h
      have e1 : names.length = vs.length := by rw [← hl, strings_eq hs]; simp
      have e2 : names'.length = vs'.length := by rw [← hl', strings_eq hs']; simp
      have hz : sortFields (names'.zip (vs'.map nf)) = sortFields (names.zip ((vs.map (tr f g)).map nf)) := by
        simp only [mkDict, V.dict.injEq] at h
        rw [← zip_fst_snd (sortFields (names'.zip (vs'.map nf))), ← zip_fst_snd (sortFields (names.zip ((vs.map (tr f g)).map nf))), h.2]
        congr 1
        have h1 := h.1
        have e : ∀ l : List (String × V), l.map (fun f => V.str f.1) = (l.map Prod.fst).map .str := by intro l; simp
        rw [e, e] at h1
        exact (List.map_inj_right (fun a b h => V.str.inj h)).1 h1
      have p1 := sortFields_perm (names'.zip (vs'.map nf))
      rw [hz] at p1
      have p : (names.zip ((vs.map (tr f g)).map nf)).Perm (names'.zip (vs'.map nf)) := (sortFields_perm _).symm.trans p1
      obtain ⟨ps, q1, q2⟩ := perm_unmap (fun e : String × V => (e.1, nf e.2)) p (names'.zip vs') (by
        rw [← onSnd_zip]; rfl)
      have h1 : ps.map Prod.fst = names := by
        have := congrArg (List.map Prod.fst) q2
        rw [List.map_fst_zip (by simp; omega)] at this
        rw [this]; simp
      have h2 : (ps.map Prod.snd).map nf = (vs.map (tr f g)).map nf := by
        have := congrArg (List.map Prod.snd) q2
        rw [List.map_snd_zip (by simp; omega)] at this
        rw [this]; simp
      have hmem : ∀ x ∈ ps.map Prod.snd, x ∈ vs' := by
        intro x hx
        obtain ⟨e, he, rfl⟩ := List.mem_map.1 hx
        exact (List.of_mem_zip (q1.mem_iff.1 he)).2
      simp only [alike]
      refine ⟨ks', vs', ps.map (fun e => (V.str e.1, e.2)), rfl, hl', ?_, ?_, ?_⟩
      · have := q1.map (fun e : String × V => (V.str e.1, e.2))
        refine this.trans ?_
        rw [strings_eq hs', List.zip_map_left]
        rfl
      · rw [strings_eq hs, ← h1]; simp
      · have e : (ps.map (fun e => (V.str e.1, e.2))).map Prod.snd = ps.map Prod.snd := by simp
        rw [e]
        rw [wfs_iff] at hw
        rw [noTuples_iff] at tw
        exact alikes_nf vs (ps.map Prod.snd) hv tv (by rw [wfs_iff]; exact fun x hx => hw x (hmem x hx))
          (by rw [noTuples_iff]; exact fun x hx => tw x (hmem x hx)) (fun o ho => hf o (by simp [V.subs, ho]))
          (fun s i ho => hg s i (by simp [V.subs, ho])) h2
    | _ => simp [nf, cn, tr, mkDict] at h
termination_by structural v
theorem alikes_nf (l l' : List V) (hv : wfs l) (tv : noTuples l) (hw : wfs l') (tw : noTuples l') (hf : ∀ o, V.ref o ∈ subss l → pointerLike (f o))
    (hg : ∀ s i, V.link s i ∈ subss l → pointerLike (g s i)) (h : l'.map nf = (l.map (tr f g)).map nf) :
    alikes (fun o w => w = f o) (fun s i w => w = g s i) l l' := by
  cases l with
  | nil => simp only [alikes]; simpa using h
  | cons v vs =>
    cases l' with
    | nil => simp at h
    | cons w ws =>
      simp only [List.map_cons, List.cons.injEq] at h
      simp only [wfs, noTuples] at hv tv hw tw
      simp only [alikes]
      exact ⟨w, ws, rfl, alike_nf v w hv.1 tv.1 hw.1 tw.1 (fun o ho => hf o (by simp [subss, ho])) (fun s i ho => hg s i (by simp [subss, ho])) h.1,
        alikes_nf vs ws hv.2 tv.2 hw.2 tw.2 (fun o ho => hf o (by simp [subss, ho])) (fun s i ho => hg s i (by simp [subss, ho])) h.2⟩
termination_by structural l
end
end

mutual
/-- weaker conditions on what entities and links became -/
theorem alike_mono {L L' : Nat → V → Prop} {G G' : String → String → V → Prop} (v w : V) (hL : ∀ o w, V.ref o ∈ v.subs → L o w → L' o w)
    (hG : ∀ s i w, V.link s i ∈ v.subs → G s i w → G' s i w) (h : alike L G v w) : alike L' G' v w := by
  cases v with
  | list l =>
    simp only [alike] at h ⊢
    obtain ⟨l', e, h⟩ := h
    exact ⟨l', e, alikes_mono l l' (fun o w ho => hL o w (by simp [V.subs, ho])) (fun s i w ho => hG s i w (by simp [V.subs, ho])) h⟩
  | tuple l =>
    simp only [alike] at h ⊢
    obtain ⟨l', e, h⟩ := h
    exact ⟨l', e, alikes_mono l l' (fun o w ho => hL o w (by simp [V.subs, ho])) (fun s i w ho => hG s i w (by simp [V.subs, ho])) h⟩
  | dict ks vs =>
    simp only [alike] at h ⊢
    obtain ⟨ks', vs', ps, e1, e2, e3, e4, h⟩ := h
    exact ⟨ks', vs', ps, e1, e2, e3, e4, alikes_mono vs _ (fun o w ho => hL o w (by simp [V.subs, ho])) (fun s i w ho => hG s i w (by simp [V.subs, ho])) h⟩
  | obj t ns vs =>
    simp only [alike] at h ⊢
    obtain ⟨l', e, h⟩ := h
    exact ⟨l', e, alikes_mono vs l' (fun o w ho => hL o w (by simp [V.subs, ho])) (fun s i w ho => hG s i w (by simp [V.subs, ho])) h⟩
  | link s i => simp only [alike] at h ⊢; exact hG s i w (self_mem_subs _) h
  | ref o => simp only [alike] at h ⊢; exact hL o w (self_mem_subs _) h
  | _ => simpa only [alike] using h
termination_by structural v
theorem alikes_mono {L L' : Nat → V → Prop} {G G' : String → String → V → Prop} (l l' : List V) (hL : ∀ o w, V.ref o ∈ subss l → L o w → L' o w)
    (hG : ∀ s i w, V.link s i ∈ subss l → G s i w → G' s i w) (h : alikes L G l l') : alikes L' G' l l' := by
  cases l with
  | nil => simpa only [alikes] using h
  | cons v vs =>
    simp only [alikes] at h ⊢
    obtain ⟨w, ws, e, h1, h2⟩ := h
    exact ⟨w, ws, e, alike_mono v w (fun o w ho => hL o w (by simp [subss, ho])) (fun s i w ho => hG s i w (by simp [subss, ho])) h1,
      alikes_mono vs ws (fun o w ho => hL o w (by simp [subss, ho])) (fun s i w ho => hG s i w (by simp [subss, ho])) h2⟩
termination_by structural l
end

/-- the entity can be linked to: it has an id, and one in the requested scope unless another may be taken -/
def Linkable (lower : String → String) (scope : Option String) (fallback : Bool) (x : EObj) : Prop :=
  x.uids ≠ [] ∧ (scope = none ∨ fallback = true ∨ ∃ s, scope = some s ∧ ∃ u ∈ x.uids, lower u.1 = lower s)

theorem toLink_ok {lower : String → String} {scope : Option String} {fallback : Bool} {x : EObj} (h : Linkable lower scope fallback x) :
    ∃ s i, toLink lower scope fallback x = .ok (.link s i) ∧ ∃ u ∈ x.uids, lower u.1 = lower s ∧ u.2 = i := by
  obtain ⟨h1, h2⟩ := h
  unfold toLink
  split
  · rename_i e; exact absurd e h1
  · rename_i first i0 rest e
    have hex : ∃ u ∈ x.uids, lower u.1 = lower (linkScope lower x first fallback scope) := by
      have hfirst : ∃ u ∈ x.uids, lower u.1 = lower first := ⟨(first, i0), by rw [e]; simp, rfl⟩
      cases scope with
      | none => exact hfirst
      | some s =>
        simp only [linkScope]
        split
        · exact hfirst
        · rename_i hn
          rcases h2 with h2 | rfl | ⟨s', hs', h2⟩
          · cases h2
          · simp only [Bool.true_and, Bool.not_eq_true', Bool.not_eq_false] at hn
            rw [List.any_eq_true] at hn
            obtain ⟨u, hu, hd⟩ := hn
            exact ⟨u, hu, by simpa using hd⟩
          · cases hs'; exact h2
    split
    · rename_i u hu
      exact ⟨_, _, rfl, u, List.mem_of_find?_eq_some hu, by simpa using List.find?_some hu, rfl⟩
    · rename_i hnone
      rw [List.find?_eq_none] at hnone
      obtain ⟨u, hu, hd⟩ := hex
      exact absurd (by simpa using hd) (hnone u hu)

/-- the link of each entity -/
def linkOf (lower : String → String) (scope : Option String) (fallback : Bool) (m : Mem) (o : Nat) : V :=
  match m[o]? with
  | some x => match toLink lower scope fallback x with
    | .ok l => l
    | .error _ => .none
  | none => .none

theorem linkOf_ok {lower : String → String} {scope : Option String} {fallback : Bool} {m : Mem} {o : Nat} {x : EObj} (hx : m[o]? = some x)
    (h : Linkable lower scope fallback x) :
    ∃ s i, toLink lower scope fallback x = .ok (.link s i) ∧ linkOf lower scope fallback m o = .link s i ∧ Carries lower m o (lower s) i := by
  obtain ⟨s, i, h1, u, hu, h2, h3⟩ := toLink_ok h
  refine ⟨s, i, h1, by simp [linkOf, hx, h1], x, hx, u.1, by rw [← h3]; exact hu, h2⟩

/-- what an entity becomes: a link it equals, `link.id == entity.uids[link.scope]` -/
def LinkTo (lower : String → String) (m : Mem) (o : Nat) (w : V) : Prop := ∃ s i, w = .link s i ∧ Carries lower m o (lower s) i

/-- links stay -/
def SameLink (s i : String) (w : V) : Prop := w = .link s i

theorem alikes_append {L : Nat → V → Prop} {G : String → String → V → Prop} {a a' b b' : List V} (h1 : alikes L G a a') (h2 : alikes L G b b') :
    alikes L G (a ++ b) (a' ++ b') := by
  induction a generalizing a' with
  | nil => simp only [alikes] at h1; subst h1; exact h2
  | cons v vs ih =>
    simp only [alikes] at h1
    obtain ⟨w, ws, rfl, h3, h4⟩ := h1
    simp only [List.cons_append, alikes]
    exact ⟨w, ws ++ b', rfl, h3, ih h4⟩

section
variable {env : Env} {m : Mem} {f : Nat → V}

theorem linked {lower : String → String} {v w : V} (hv : wf v) (tv : noTuple v) (hr : ∀ p, V.ref p ∈ v.subs → LinkTo lower m p (f p)) (hw : Clean env m w)
    (h : nf w = nf (tr f .link v)) : alike (LinkTo lower m) SameLink v w := by
  refine alike_mono v w ?_ ?_ (alike_nf v w hv tv hw.wf hw.noTuple ?_ ?_ h)
  · rintro o w ho rfl
    exact hr o ho
  · rintro s i w _ rfl
    rfl
  · intro o ho
    obtain ⟨s, i, h, _⟩ := hr o ho
    rw [h]; trivial
  · intro s i _; trivial

theorem linkeds {lower : String → String} {l l' : List V} (hl : ∀ v ∈ l, wf v ∧ noTuple v) (hr : ∀ v ∈ l, ∀ p, V.ref p ∈ v.subs → LinkTo lower m p (f p))
    (hw : ∀ w ∈ l', Clean env m w) (h : l'.map nf = (l.map (tr f .link)).map nf) : alikes (LinkTo lower m) SameLink l l' := by
  induction l generalizing l' with
  | nil => simp only [alikes]; simpa using h
  | cons v vs ih =>
    cases l' with
    | nil => simp at h
    | cons w ws =>
      simp only [List.map_cons, List.cons.injEq] at h
      simp only [alikes]
      exact ⟨w, ws, rfl, linked (hl v (by simp)).1 (hl v (by simp)).2 (hr v (by simp)) (hw w (by simp)) h.1,
        ih (fun v hv => hl v (by simp [hv])) (fun v hv => hr v (by simp [hv])) (fun w h => hw w (by simp [h])) h.2⟩

end

/-! ## The copy of an entity -/

theorem copy_shape {env : Env} {m m' : Mem} (hg : Grows m m') {c : ECls} {uids : List (String × String)} (hc : clash env.lower (uids.map Prod.fst) = false)
    {ws : List V} (hl : ws.length = (eargs c).length) (hcl : ∀ w ∈ ws, Clean env m w)
    (hconv : ∀ p ∈ (eargs c).zip ws, conv env m p.1.kind p.2 = .ok p.2) (name labels : V) :
    Shape env m' (loaded c (sortUids uids) ws name labels) ws (loadedOwn c name labels) := by
  refine Shape.grows hg ⟨hl, rfl, ?_, hconv, fun w hw => (hcl w hw).ok, clash_perm env.lower ((sortUids_perm uids).map Prod.fst).symm hc⟩
  unfold loaded loadedOwn
  split
  · rename_i e; simp only [e]; rfl
  · rfl

/-- the copy does not refer to any entity, so its name and labels are its own -/
theorem copy_part {m' : Mem} {c : ECls} {uids : List (String × String)} {ws : List V} (hl : ws.length = (eargs c).length)
    (hn : ∀ w ∈ ws, ∀ p, w ≠ .ref p) (name labels : V) :
    ingredientPart m' (loaded c uids ws name labels) (loadedOwn c name labels) =
      if c = .ingredientRun then [("name", name), ("labels", labels)] else [] := by
  unfold ingredientPart
  by_cases hi : c = .ingredientRun
  · subst hi
    have hg : ∀ p, Dict.get? (loaded .ingredientRun uids ws name labels).fields "_spec" ≠ some (.ref p) := by
      intro p e
      have := Dict.mem_of_get? e
      simp only [loaded, loadedOwn, if_true] at this
      rcases List.mem_append.1 this with h | h
      · exact hn _ (List.of_mem_zip h).2 p rfl
      · simp at h
    have : ∀ f : String × V, getattr m' (loaded .ingredientRun uids ws name labels) f = f.2 := by
      intro f
      unfold getattr
      split
      · split
        · rename_i p hp; exact absurd hp (hg p)
        · rfl
      · rfl
    simp only [loaded, loadedOwn, if_true, List.map_cons, List.map_nil] at this ⊢
    simp only [this]
    have e1 : Equal.lstrip "_name" = "name" := by decide +kernel
    have e2 : Equal.lstrip "_labels" = "labels" := by decide +kernel
    rw [e1, e2]
  · rw [if_neg hi, if_neg]
    exact hi

theorem noType_uids {us : List (String × String)} (h : wf (uidsDict us)) : "type" ∉ us.map Prod.fst := by
  unfold uidsDict at h
  simp only [wf] at h
  obtain ⟨⟨_, names, hs, _, hn⟩, _⟩ := h
  have e : us.map (fun p => V.str p.1) = (us.map Prod.fst).map .str := by simp
  rw [e, strings_str] at hs
  cases hs
  exact hn

theorem nf_uids (us : List (String × String)) : nf (uidsDict (sortUids us)) = nf (uidsDict us) := by
  have h1 : asFields (sortUids us) = sortFields (asFields us) := by
    unfold sortUids
    have : ∀ f ∈ sortFields (asFields us), ∃ s, f.2 = .str s := by
      intro f hf
      have := (sortFields_perm _).mem_iff.1 hf
      simp only [asFields, List.mem_map] at this
      obtain ⟨p, _, rfl⟩ := this
      exact ⟨_, rfl⟩
    generalize sortFields (asFields us) = l at this
    induction l with
    | nil => rfl
    | cons a l ih =>
      obtain ⟨s, hs⟩ := this a (by simp)
      simp only [asPairs, asFields, List.map_cons, List.map_map] at ih ⊢
      rw [ih (fun f hf => this f (by simp [hf]))]
      rw [hs, ← hs]
  rw [uidsDict_eq, uidsDict_eq, nf_mkDict, nf_mkDict, h1, ← onSnd_sort, sortFields_idem]

/-- `y` is what `build` makes of the record of `x` with entities replaced according to `f` -/
def Copy (env : Env) (m : Mem) (f : Nat → V) (x y : EObj) : Prop := ∃ vals own ws name labels, Shape env m x vals own ∧
  y = loaded x.cls (sortUids x.uids) ws name labels ∧ ws.length = (eargs x.cls).length ∧ ws.map nf = (vals.map (tr f .link)).map nf ∧
  (∀ w ∈ ws, Clean env m w) ∧ (∀ p ∈ (eargs x.cls).zip ws, conv env m p.1.kind p.2 = .ok p.2) ∧ nameLike name ∧ labelsLike labels ∧
  ingredientPart m x own = if x.cls = .ingredientRun then [("name", name), ("labels", labels)] else []

/-- a copy, as seen from outside -/
def Copied (lower : String → String) (m : Mem) (x : EObj) (m' : Mem) (y : EObj) : Prop :=
  y.cls = x.cls ∧ y.uids.Perm x.uids ∧ (asDict m' y).map Prod.fst = (asDict m x).map Prod.fst ∧
    alikes (LinkTo lower m) SameLink ((asDict m x).map Prod.snd) ((asDict m' y).map Prod.snd) ∧
    ∀ f ∈ asDict m' y, ∀ p, V.ref p ∉ f.2.subs

/-- the attributes of a copy -/
theorem Copy.attrs {env : Env} {m m' : Mem} {f : Nat → V} {x y : EObj} (hc : Copy env m f x y) (hg : Grows m m') (hv : ∀ e ∈ asDict m x, wf e.2 ∧ noTuple e.2) :
    (asDict m' y).map Prod.fst = (asDict m x).map Prod.fst ∧ ((asDict m' y).map Prod.snd).map nf = (((asDict m x).map Prod.snd).map (tr f .link)).map nf ∧
      ∀ w ∈ (asDict m' y).map Prod.snd, Clean env m w := by
  obtain ⟨vals, own, ws, name, labels, hs, rfl, h2, h3, h4, h5, h6, h7, h8⟩ := hc
  have hd := asDict_eq hs m
  have huids := (hv ("uids", uidsDict x.uids) (by rw [hd]; simp)).1
  have hnr : ∀ w ∈ ws, ∀ p, V.ref p ∉ w.subs := fun w hw p => noRef_subs w (h4 w hw).wf (h4 w hw).noRef p
  have hshape := copy_shape hg hs.uids h2 h4 h5 name labels
  have hd' := asDict_eq hshape m'
  rw [copy_part h2 (fun w hw p e => hnr w hw p (by rw [e]; exact self_mem_subs _))] at hd'
  rw [hd', hd, h8]
  simp only [loaded]
  have hpart : ∀ v ∈ (if x.cls = .ingredientRun then [("name", name), ("labels", labels)] else ([] : List (String × V))).map Prod.snd,
      Clean env m v ∧ ∀ g : Nat → V, ∀ g', tr g g' v = v := by
    intro v hv
    split at hv
    · simp only [List.map_cons, List.map_nil, List.mem_cons, List.not_mem_nil, or_false] at hv
      rcases hv with rfl | rfl
      · exact nameLike_clean h6
      · exact labelsLike_clean h7
    · simp at hv
  have hcl : ∀ w ∈ ([("type", V.str (Equal.typ x.cls)), ("uids", uidsDict (sortUids x.uids))] ++ (((eargs x.cls).map EArg.name).zip ws ++
      (if x.cls = .ingredientRun then [("name", name), ("labels", labels)] else []))).map Prod.snd, Clean env m w := by
    intro w hw
    simp only [List.map_cons, List.map_append, List.map_nil] at hw
    rw [List.map_snd_zip (by simp [h2])] at hw
    rcases List.mem_append.1 hw with hw | hw
    · simp only [List.mem_cons, List.not_mem_nil, or_false] at hw
      rcases hw with rfl | rfl
      · exact leaf_clean (.inl rfl)
      · exact wf_uids _ (clash_perm env.lower ((sortUids_perm x.uids).map Prod.fst).symm hs.uids)
          (fun h => noType_uids huids (((sortUids_perm x.uids).map Prod.fst).mem_iff.1 h))
    · rcases List.mem_append.1 hw with hw | hw
      · exact h4 w hw
      · exact (hpart w hw).1
  refine ⟨?_, ?_, hcl⟩
  · simp only [List.map_cons, List.map_append]
    rw [List.map_fst_zip (by simp [h2]), List.map_fst_zip (by simp [hs.len])]
  · simp only [List.map_cons, List.map_append, List.cons_append, List.nil_append]
    rw [List.map_snd_zip (by simp [h2]), List.map_snd_zip (by simp [hs.len]), h3]
    congr 1
    congr 1
    · rw [nf_uids, tr_uids, ← tr_uids .ref .link, nf_tr (uidsDict x.uids) huids]
    · congr 2
      rw [List.map_congr_left (g := id) (fun v hv => (hpart v hv).2 _ _), List.map_id]

theorem Copy.copied {env : Env} {m m' : Mem} {f : Nat → V} {x y : EObj} (hc : Copy env m f x y) (hg : Grows m m')
    (hv : ∀ e ∈ asDict m x, wf e.2 ∧ noTuple e.2) (hr : ∀ e ∈ asDict m x, ∀ p, V.ref p ∈ e.2.subs → LinkTo env.lower m p (f p)) :
    Copied env.lower m x m' y := by
  obtain ⟨h1, h2, h3⟩ := hc.attrs hg hv
  have hall : ∀ v ∈ (asDict m x).map Prod.snd, (wf v ∧ noTuple v) ∧
      ∀ p, V.ref p ∈ v.subs → LinkTo env.lower m p (f p) := by
    intro v hvv
    obtain ⟨e, he, rfl⟩ := List.mem_map.1 hvv
    exact ⟨hv e he, fun p hp => hr e he p hp⟩
  refine ⟨?_, ?_, h1, linkeds (f := f) (fun v hv => (hall v hv).1) (fun v hv => (hall v hv).2) h3 h2, ?_⟩
  · obtain ⟨vals, own, ws, name, labels, hs, rfl, h⟩ := hc
    rfl
  · obtain ⟨vals, own, ws, name, labels, hs, rfl, h⟩ := hc
    exact sortUids_perm _
  · intro e he p
    have := h3 e.2 (List.mem_map_of_mem he)
    exact noRef_subs e.2 this.wf this.noRef p

theorem Copy.uids {env : Env} {m : Mem} {f : Nat → V} {x y : EObj} (hc : Copy env m f x y) : y.cls = x.cls ∧ y.uids.Perm x.uids := by
  obtain ⟨vals, own, ws, name, labels, hs, rfl, h⟩ := hc
  exact ⟨rfl, sortUids_perm _⟩

/-! ## C41 -/

section
variable (env : Env) (m : Mem) (scope : Option String) (fallback : Bool)

/-- C41, for anything but an entity: in `substitute_links(v)` every entity occurring in `v`, at any depth, has been replaced by a link that it
equals, links and all other values are kept, and no existing entity has been touched (the memory is the same).

Missing: values with tuples (see `C41_pairs_counterexample`) and, inside value objects, dictionaries with a key `type` (excluded by `wf`).
`Made` says that `v` consists of values, and of objects constructed by their constructors. -/
theorem C41_values_partial (hs : Sane env) (v : V) (hm : Made env m v) (hv : wf v) (ht : noTuple v) (hnot : ∀ o, v ≠ .ref o)
    (hr : ∀ p, V.ref p ∈ v.subs → ∃ y, m[p]? = some y ∧ Linkable env.lower scope fallback y) :
    ∃ w, substituteLinks env scope fallback m v = .ok (w, m) ∧ alike (LinkTo env.lower m) SameLink v w ∧ ∀ o, V.ref o ∉ w.subs := by
  obtain ⟨w, st', h1, h2, h3, h4⟩ := sub_links (env := env) (m := m) (scope := scope) (fallback := fallback) (top := v)
    (f := linkOf env.lower scope fallback m) (expandE env (linkRepl env.lower scope fallback v) 1) v (by
      refine ⟨hv, hm.okV hs, ht, fun o ho => ⟨fun e => hnot o e.symm, ?_⟩⟩
      obtain ⟨y, hy, hl⟩ := hr o ho
      obtain ⟨s, i, e1, e2, _⟩ := linkOf_ok hy hl
      exact ⟨y, s, i, hy, e1, e2⟩) { visited := [], mem := m } rfl (Vis.nil _)
  refine ⟨w, ?_, linked hv ht (fun p hp => ?_) h4.clean h4.eq, fun o => noRef_subs w h4.clean.wf h4.clean.noRef o⟩
  · unfold substituteLinks substitute
    simp only [h1, h2]
  · obtain ⟨y, hy, hl⟩ := hr p hp
    obtain ⟨s, i, _, e2, e3⟩ := linkOf_ok hy hl
    exact ⟨s, i, e2, e3⟩

/-- `substitute_links` of an entity -/
theorem strip_copied (hT : WellTyped env m) (o : Nat) (x : EObj) (hx : m[o]? = some x) (hv : ∀ f ∈ asDict m x, wf f.2 ∧ noTuple f.2)
    (hr : ∀ f ∈ asDict m x, ∀ p, V.ref p ∈ f.2.subs → p ≠ o ∧ ∃ y, m[p]? = some y ∧ Linkable env.lower scope fallback y) :
    ∃ y, substituteLinks env scope fallback m (.ref o) = .ok (.ref m.length, m ++ [y]) ∧ Copy env m (linkOf env.lower scope fallback m) x y := by
  obtain ⟨vals, own, hs, hown⟩ := hT o x hx
  have hd := asDict_eq hs m
  have hmem : ∀ v ∈ vals, ∃ f ∈ asDict m x, f.2 = v := by
    intro v hv
    have : v ∈ (((eargs x.cls).map EArg.name).zip vals).map Prod.snd := by
      rw [List.map_snd_zip (by simp [hs.len])]; exact hv
    obtain ⟨f, hf, rfl⟩ := List.mem_map.1 this
    exact ⟨f, by rw [hd]; simp [hf], rfl⟩
  have huids := (hv ("uids", uidsDict x.uids) (by rw [hd]; simp)).1
  have hp : Strippable env m scope fallback (linkOf env.lower scope fallback m) o x vals := by
    refine ⟨?_, ?_, ?_⟩
    · intro v hvv
      obtain ⟨f, hf, rfl⟩ := hmem v hvv
      exact hv f hf
    · exact noType_uids huids
    · intro v hvv p hp
      obtain ⟨f, hf, rfl⟩ := hmem v hvv
      obtain ⟨h1, y, hy, hl⟩ := hr f hf p hp
      obtain ⟨s, i, e1, e2, _⟩ := linkOf_ok hy hl
      exact ⟨h1, y, s, i, hy, e1, e2⟩
  obtain ⟨ws, name, labels, h1, h2⟩ := strip_entity hT o x hx vals own hs hown hp
  exact ⟨_, h1, vals, own, ws, name, labels, hs, rfl, h2⟩

/-- C41, for an entity: `substitute_links(x)` is a new entity, of the same class and with the same ids; all of its attributes hold what those of `x` hold,
except that every entity at any depth has been replaced by a link that it equals; and no existing entity has been touched (they keep their places in the
memory). Attributes are those of `as_dict`, in which an entity does not mention those pointing back at it. -/
theorem C41_entity_partial (hT : WellTyped env m) (o : Nat) (x : EObj) (hx : m[o]? = some x) (hv : ∀ f ∈ asDict m x, wf f.2 ∧ noTuple f.2)
    (hr : ∀ f ∈ asDict m x, ∀ p, V.ref p ∈ f.2.subs → p ≠ o ∧ ∃ y, m[p]? = some y ∧ Linkable env.lower scope fallback y) :
    ∃ y, substituteLinks env scope fallback m (.ref o) = .ok (.ref m.length, m ++ [y]) ∧ y.cls = x.cls ∧ y.uids.Perm x.uids ∧
      (asDict (m ++ [y]) y).map Prod.fst = (asDict m x).map Prod.fst ∧
      alikes (LinkTo env.lower m) SameLink ((asDict m x).map Prod.snd) ((asDict (m ++ [y]) y).map Prod.snd) ∧
      ∀ f ∈ asDict (m ++ [y]) y, ∀ p, V.ref p ∉ f.2.subs := by
  obtain ⟨y, h1, hc⟩ := strip_copied env m scope fallback hT o x hx hv hr
  refine ⟨_, h1, hc.copied (Grows.append m _) hv ?_⟩
  intro e he p hp
  obtain ⟨_, y, hy, hl⟩ := hr e he p hp
  obtain ⟨s, i, _, e2, e3⟩ := linkOf_ok hy hl
  exact ⟨s, i, e2, e3⟩

/-- C41: the condition of `C41_entity_partial` on the memory holds for all objects made by their constructors. -/
theorem C41_entity_built_partial (hs : Sane env) (hB : Built env m) (o : Nat) (x : EObj) (hx : m[o]? = some x)
    (hv : ∀ f ∈ asDict m x, wf f.2 ∧ noTuple f.2)
    (hr : ∀ f ∈ asDict m x, ∀ p, V.ref p ∈ f.2.subs → p ≠ o ∧ ∃ y, m[p]? = some y ∧ Linkable env.lower scope fallback y) :
    ∃ y, substituteLinks env scope fallback m (.ref o) = .ok (.ref m.length, m ++ [y]) ∧ y.cls = x.cls ∧ y.uids.Perm x.uids ∧
      (asDict (m ++ [y]) y).map Prod.fst = (asDict m x).map Prod.fst ∧
      alikes (LinkTo env.lower m) SameLink ((asDict m x).map Prod.snd) ((asDict (m ++ [y]) y).map Prod.snd) ∧
      ∀ f ∈ asDict (m ++ [y]) y, ∀ p, V.ref p ∉ f.2.subs :=
  C41_entity_partial env m scope fallback (hB.wellTyped hs) o x hx hv hr

/-- C41: an entity that cannot be linked to makes `substitute_links` raise -/
theorem C41_unlinkable (o : Nat) (x : EObj) (hx : m[o]? = some x) (h : ¬ Linkable env.lower scope fallback x) :
    ∃ e, substituteLinks env scope fallback m (.list [.ref o]) = .error e := by
  have : ∃ e, toLink env.lower scope fallback x = .error e := by
    unfold toLink
    split
    · exact ⟨_, rfl⟩
    · rename_i first i rest hu
      split
      · rename_i u hf
        refine absurd ⟨by rw [hu]; simp, ?_⟩ h
        cases scope with
        | none => exact .inl rfl
        | some s =>
          right
          cases fallback with
          | true => exact .inl rfl
          | false => exact .inr ⟨s, rfl, u, List.mem_of_find?_eq_some hf, by simpa [linkScope] using List.find?_some hf⟩
      · exact ⟨_, rfl⟩
  obtain ⟨e, he⟩ := this
  refine ⟨e, ?_⟩
  unfold substituteLinks substitute
  simp only [sub, subList, subLeaf, recall, V.hash, Dict.get?_nil, linkRepl, hx, he, reduceCtorEq, if_false]

end

/-- C41 fails for tuples: `substitute_links([("id", "1"), LinkByUID("id", "1")])` is `[("id", "1"), ("id", "1")]`, for tuples and links
are equal and have the same hash, and the dictionary of results does not distinguish them. -/
theorem C41_pairs_counterexample : ∃ w, substituteLinks plainEnv none false [] (.list [.tuple [.str "id", .str "1"], .link "id" "1"]) = .ok (w, []) ∧
    ¬ alike (LinkTo plainEnv.lower []) SameLink (.list [.tuple [.str "id", .str "1"], .link "id" "1"]) w := by
  refine ⟨.list [.tuple [.str "id", .str "1"], .tuple [.str "id", .str "1"]], by decide +kernel, ?_⟩
  simp [alike, alikes, SameLink]

/-- ... nor does it distinguish `1` and `True`: this is the reason why `alike` does not look at the types of numbers -/
theorem C41_numbers_counterexample : substituteLinks plainEnv none false [] (.list [.int 1, .bool true]) = .ok (.list [.int 1, .int 1], []) := by
  decide +kernel

/-- the hypotheses of `C41_entity_built_partial` are met: an ingredient run, whose process, material and spec become links -/
example : Built plainEnv sample ∧ ∃ x, sample[6]? = some x ∧ (∀ f ∈ asDict sample x, wf f.2 ∧ noTuple f.2) ∧
    (∀ f ∈ asDict sample x, ∀ p, V.ref p ∈ f.2.subs → p ≠ 6 ∧ ∃ y, sample[p]? = some y ∧ Linkable plainEnv.lower none false y) ∧
    ("process", V.ref 3) ∈ asDict sample x := by
  refine ⟨sample_built, ?_⟩
  have : ∃ x, sample[6]? = some x := by rw [← Option.isSome_iff_exists]; decide +kernel
  obtain ⟨x, hx⟩ := this
  have key : ((sample[6]?).toList.all fun x => (asDict sample x).all (fun f => tidy f.2 && f.2.subs.all (fun w => match w with
    | .ref p => decide (p ≠ 6) && ((sample[p]?).any fun y => decide (y.uids ≠ []))
    | _ => true)) && decide (("process", V.ref 3) ∈ asDict sample x)) = true := by decide +kernel
  rw [hx] at key
  simp only [Option.toList_some, List.all_cons, List.all_nil, Bool.and_true, Bool.and_eq_true, List.all_eq_true] at key
  refine ⟨x, hx, fun f hf => tidy_spec f.2 (key.1 f hf).1, ?_, by simpa using key.2⟩
  intro f hf p hp
  have := (key.1 f hf).2 _ hp
  simp only [Bool.and_eq_true, decide_eq_true_eq, Option.any_eq_true] at this
  exact ⟨this.1, this.2.choose, this.2.choose_spec.1, this.2.choose_spec.2, .inl rfl⟩

/-- the hypotheses of `C41_values_partial` are met: a list of entities in a dictionary -/
example : Made plainEnv sample (.dict [.str "all"] [.list [.ref 3, .ref 4]]) ∧ wf (.dict [.str "all"] [.list [.ref 3, .ref 4]]) ∧
    noTuple (.dict [.str "all"] [.list [.ref 3, .ref 4]]) := by
  refine ⟨?_, tidy_spec _ (by decide +kernel)⟩
  refine Made.dict _ _ (fun v hv => ?_)
  simp at hv
  subst hv
  refine Made.list _ (fun v hv => ?_)
  simp at hv
  rcases hv with rfl | rfl <;> exact Made.ref _

/-- the hypotheses of `C41_unlinkable` are met -/
example : ¬ Linkable plainEnv.lower (some "auto") false { cls := .materialRun, uids := [("id", "1")], fields := [] } := by
  simp [Linkable, plainEnv]

end Verif.Substitute
