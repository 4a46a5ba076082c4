import Verif.Props.Substitute
import Verif.Props.Forward
/-!
# `flatten`: what is kept, sorting, stripping
-/

set_option linter.unusedSimpArgs false
set_option linter.unusedVariables false
set_option linter.unusedSectionVars false

namespace Verif.Substitute
open Verif.Py Verif.Value Verif.Schema Verif.Json Verif.Traverse

/-! ## The entities that are kept -/

/-- the uids of an entity -/
def uidsAt (m : Mem) (o : Nat) : List (String × String) := match m[o]? with
  | some x => x.uids
  | none => []

/-- what `keepNew` keeps -/
def kept (m : Mem) : List (String × String) → List Nat → List Nat
  | _, [] => []
  | known, o :: os => if (uidsAt m o).any (fun u => decide (u ∈ known)) then kept m (known ++ uidsAt m o) os else o :: kept m (known ++ uidsAt m o) os

theorem keep_calls (m : Mem) (os : List Nat) (h : ∀ o ∈ os, ∃ x, m[o]? = some x ∧ x.uids ≠ []) (known : List (String × String)) (acc : List V) :
    ∃ known', calls (collect keepNew) ((m, known), acc) (os.map .ref) = .ok ((m, known'), acc ++ (kept m known os).map .ref) := by
  induction os generalizing known acc with
  | nil => exact ⟨known, by simp [calls, kept]⟩
  | cons o os ih =>
    obtain ⟨x, hx, hu⟩ := h o (by simp)
    have hlen : x.uids.length ≠ 0 := by simpa using hu
    have hat : uidsAt m o = x.uids := by simp [uidsAt, hx]
    simp only [List.map_cons, calls, collect, keepNew, hx, if_neg hlen, kept, hat]
    by_cases hk : (x.uids.any fun u => decide (u ∈ known)) = true
    · simp only [hk, if_true]
      obtain ⟨known', hih⟩ := ih (fun o ho => h o (by simp [ho])) (known ++ x.uids) (acc ++ [])
      refine ⟨known', ?_⟩
      rw [hih]
      simp
    · simp only [hk, if_false, Bool.false_eq_true]
      obtain ⟨known', hih⟩ := ih (fun o ho => h o (by simp [ho])) (known ++ x.uids) (acc ++ [V.ref o])
      refine ⟨known', ?_⟩
      rw [hih]
      simp

theorem keep_error (m : Mem) (os : List Nat) (o : Nat) (ho : o ∈ os) (hin : ∀ o ∈ os, ∃ x, m[o]? = some x) (h : uidsAt m o = [])
    (known : List (String × String)) (acc : List V) :
    calls (collect keepNew) ((m, known), acc) (os.map .ref) = .error .valueError := by
  induction os generalizing known acc with
  | nil => simp at ho
  | cons p os ih =>
    obtain ⟨x, hx⟩ := hin p (by simp)
    simp only [List.map_cons, calls, collect, keepNew, hx]
    by_cases hl : x.uids.length = 0
    · simp [hl]
    · simp only [if_neg hl]
      have hne : o ≠ p := by
        intro e; subst e
        simp [uidsAt, hx] at h
        exact hl (by simp [h])
      have ho' : o ∈ os := by simpa [hne] using ho
      exact ih ho' (fun o ho => hin o (by simp [ho])) _ _

theorem kept_sublist (m : Mem) (known : List (String × String)) (os : List Nat) : (kept m known os).Sublist os := by
  induction os generalizing known with
  | nil => simp [kept]
  | cons o os ih =>
    simp only [kept]
    split
    · exact (ih _).cons _
    · exact (ih _).cons_cons _

theorem kept_known {m : Mem} {known : List (String × String)} {os : List Nat} {o : Nat} (ho : o ∈ kept m known os) :
    ∀ u ∈ uidsAt m o, u ∉ known := by
  induction os generalizing known with
  | nil => simp [kept] at ho
  | cons p os ih =>
    simp only [kept] at ho
    split at ho
    · intro u hu hk
      exact ih ho u hu (by simp [hk])
    · rename_i hn
      rcases List.mem_cons.1 ho with rfl | ho
      · intro u hu hk
        apply hn
        rw [List.any_eq_true]
        exact ⟨u, hu, by simpa using hk⟩
      · intro u hu hk
        exact ih ho u hu (by simp [hk])

/-- no two share an id -/
theorem kept_pairwise (m : Mem) (known : List (String × String)) (os : List Nat) :
    (kept m known os).Pairwise (fun a b => ∀ u ∈ uidsAt m a, u ∉ uidsAt m b) := by
  induction os generalizing known with
  | nil => simp [kept]
  | cons o os ih =>
    simp only [kept]
    split
    · exact ih _
    · refine List.Pairwise.cons ?_ (ih _)
      intro b hb u hu hub
      exact kept_known hb u hub (by simp [hu])

/-- what was not kept shares an id with something before it -/
theorem kept_or {m : Mem} {known : List (String × String)} {os : List Nat} {o : Nat} (ho : o ∈ os) :
    o ∈ kept m known os ∨ ∃ u ∈ uidsAt m o, u ∈ known ∨ ∃ p, [p, o].Sublist os ∧ u ∈ uidsAt m p := by
  induction os generalizing known with
  | nil => simp at ho
  | cons q os ih =>
    simp only [kept]
    rcases List.mem_cons.1 ho with rfl | ho
    · by_cases hk : (uidsAt m o).any (fun u => decide (u ∈ known)) = true
      · right
        rw [List.any_eq_true] at hk
        obtain ⟨u, hu, hd⟩ := hk
        exact ⟨u, hu, .inl (by simpa using hd)⟩
      · left; simp [hk]
    · rcases ih (known := known ++ uidsAt m q) ho with h | ⟨u, hu, h⟩
      · left
        split
        · exact h
        · exact List.mem_cons_of_mem _ h
      · right
        refine ⟨u, hu, ?_⟩
        rcases h with h | ⟨p, hp, h⟩
        · rcases List.mem_append.1 h with h | h
          · exact .inl h
          · exact .inr ⟨q, by simpa using ho, h⟩
        · exact .inr ⟨p, hp.cons _, h⟩

/-- if entities that share an id have the same ids, every one has the ids of one that is kept -/
theorem kept_all {m : Mem} {known : List (String × String)} {os : List Nat} (hn : ∀ o ∈ os, uidsAt m o ≠ [])
    (hone : ∀ a ∈ os, ∀ b ∈ os, ∀ u ∈ uidsAt m a, u ∈ uidsAt m b → (uidsAt m a).Perm (uidsAt m b))
    (hk : ∀ o ∈ os, ∀ u ∈ uidsAt m o, u ∉ known) {o : Nat} (ho : o ∈ os) :
    ∃ p ∈ kept m known os, (uidsAt m p).Perm (uidsAt m o) := by
  -- generalise: an id that is known is that of something kept before
  have gen : ∀ (os : List Nat) (known : List (String × String)) (ps : List Nat), (∀ o ∈ os, uidsAt m o ≠ []) →
      (∀ a ∈ ps ++ os, ∀ b ∈ ps ++ os, ∀ u ∈ uidsAt m a, u ∈ uidsAt m b → (uidsAt m a).Perm (uidsAt m b)) →
      (∀ u ∈ known, (∃ p ∈ ps, u ∈ uidsAt m p) ∨ ∀ o ∈ os, u ∉ uidsAt m o) → ∀ o ∈ os, ∃ p ∈ ps ++ kept m known os, (uidsAt m p).Perm (uidsAt m o) := by
    intro os
    induction os with
    | nil => intro known ps _ _ _ o ho; simp at ho
    | cons q os ih =>
      intro known ps hn hone hk o ho
      simp only [kept]
      by_cases hq : (uidsAt m q).any (fun u => decide (u ∈ known)) = true
      · rw [if_pos hq]
        rw [List.any_eq_true] at hq
        obtain ⟨u, hu, hd⟩ := hq
        have hd : u ∈ known := by simpa using hd
        obtain ⟨p, hp, hpu⟩ := (hk u hd).resolve_right (fun h => h q (by simp) hu)
        have hpq := hone p (by simp [hp]) q (by simp) u hpu hu
        rcases List.mem_cons.1 ho with rfl | ho
        · exact ⟨p, by simp [hp], hpq⟩
        · refine ih (known ++ uidsAt m q) ps (fun o ho => hn o (by simp [ho])) (fun a ha b hb => hone a (by simp at ha ⊢; rcases ha with h | h <;> simp [h]) b (by simp at hb ⊢; rcases hb with h | h <;> simp [h])) ?_ o ho
          intro v hv
          rcases List.mem_append.1 hv with hv | hv
          · rcases hk v hv with h | h
            · exact .inl h
            · exact .inr (fun o ho => h o (by simp [ho]))
          · exact .inl ⟨p, hp, hpq.symm.mem_iff.1 hv⟩
      · rw [if_neg hq]
        rcases List.mem_cons.1 ho with rfl | ho
        · exact ⟨o, by simp, List.Perm.refl _⟩
        · have := ih (known ++ uidsAt m q) (ps ++ [q]) (fun o ho => hn o (by simp [ho])) (fun a ha b hb => hone a (by simpa [or_assoc] using ha) b (by simpa [or_assoc] using hb)) ?_ o ho
          · simpa using this
          · intro v hv
            rcases List.mem_append.1 hv with hv | hv
            · rcases hk v hv with ⟨p, hp, h⟩ | h
              · exact .inl ⟨p, by simp [hp], h⟩
              · exact .inr (fun o ho => h o (by simp [ho]))
            · exact .inl ⟨q, by simp, hv⟩
  have := gen os known [] hn (by simpa using hone) (fun u hu => .inr (fun o ho h => hk o ho u h hu)) o ho
  simpa using this

/-! ## Sorting -/

theorem insertBy_perm (key : V → Nat) (v : V) (l : List V) : (insertBy key v l).Perm (v :: l) := by
  induction l with
  | nil => exact List.Perm.refl _
  | cons w l ih =>
    simp only [insertBy]
    split
    · exact List.Perm.refl _
    · exact (ih.cons w).trans (List.Perm.swap _ _ _)

theorem sortBy_perm (key : V → Nat) (l : List V) : (sortBy key l).Perm l := by
  unfold sortBy
  induction l with
  | nil => exact List.Perm.refl _
  | cons v l ih => exact (insertBy_perm key v _).trans (ih.cons v)

theorem insertBy_sorted (key : V → Nat) (v : V) (l : List V) (h : l.Pairwise (fun a b => key a ≤ key b)) :
    (insertBy key v l).Pairwise (fun a b => key a ≤ key b) := by
  induction l with
  | nil => simp [insertBy]
  | cons w l ih =>
    simp only [insertBy]
    rw [List.pairwise_cons] at h
    split
    · rename_i hle
      rw [List.pairwise_cons, List.pairwise_cons]
      refine ⟨?_, h⟩
      intro b hb
      rcases List.mem_cons.1 hb with rfl | hb
      · exact hle
      · exact Nat.le_trans hle (h.1 b hb)
    · rename_i hle
      rw [List.pairwise_cons]
      refine ⟨?_, ih h.2⟩
      intro b hb
      rcases List.mem_cons.1 ((insertBy_perm key v l).mem_iff.1 hb) with rfl | hb
      · omega
      · exact h.1 b hb

theorem sortBy_sorted (key : V → Nat) (l : List V) : (sortBy key l).Pairwise (fun a b => key a ≤ key b) := by
  unfold sortBy
  induction l with
  | nil => simp
  | cons v l ih => exact insertBy_sorted key v _ ih

theorem insertBy_filter (key : V → Nat) (k : Nat) (v : V) (l : List V) (h : l.Pairwise (fun a b => key a ≤ key b)) :
    (insertBy key v l).filter (fun x => decide (key x = k)) = (v :: l).filter (fun x => decide (key x = k)) := by
  induction l with
  | nil => rfl
  | cons w l ih =>
    simp only [insertBy]
    rw [List.pairwise_cons] at h
    split
    · rfl
    · rename_i hle
      simp only [List.filter_cons, ih h.2]
      by_cases hv : key v = k <;> by_cases hw : key w = k
      · omega
      · simp [hv, hw]
      · simp [hv, hw]
      · simp [hv, hw]

theorem sortBy_filter (key : V → Nat) (k : Nat) (l : List V) :
    (sortBy key l).filter (fun x => decide (key x = k)) = l.filter (fun x => decide (key x = k)) := by
  unfold sortBy
  induction l with
  | nil => rfl
  | cons v l ih =>
    have := insertBy_filter key k v (l.foldr (insertBy key) []) (sortBy_sorted key l)
    simp only [List.foldr_cons]
    rw [this]
    simp only [List.filter_cons, ih]

/-! ## Reachability -/

theorem _root_.Verif.Value.Reachable.trans {m : Mem} {uni : Bool} {u v w : V} (h : Reachable m uni u v) (g : Reachable m uni v w) : Reachable m uni u w := by
  induction g with
  | refl => exact h
  | step _ hc ih => exact .step ih hc

mutual
/-- what occurs in a value is in reach of it -/
theorem reach_subs (m : Mem) (uni : Bool) (v : V) (hv : wf v) (w : V) (hw : w ∈ v.subs) : Reachable m uni v w := by
  cases v with
  | list l =>
    simp only [V.subs, List.mem_cons] at hw
    rcases hw with rfl | hw
    · exact .refl _
    · simp only [wf] at hv
      obtain ⟨u, hu, h⟩ := reach_subss m uni l hv w hw
      exact .trans (.step (.refl _) (.list hu)) h
  | tuple l =>
    simp only [V.subs, List.mem_cons] at hw
    rcases hw with rfl | hw
    · exact .refl _
    · simp only [wf] at hv
      obtain ⟨u, hu, h⟩ := reach_subss m uni l hv w hw
      exact .trans (.step (.refl _) (.tuple hu)) h
  | dict ks vs =>
    simp only [V.subs, List.mem_cons, List.mem_append] at hw
    simp only [wf] at hv
    rcases hw with rfl | hw | hw
    · exact .refl _
    · obtain ⟨⟨_, names, hs, _⟩, _⟩ := hv
      rw [mem_subss] at hw
      obtain ⟨u, hu, h⟩ := hw
      have hu' := hu
      rw [strings_eq hs] at hu'
      obtain ⟨s, _, rfl⟩ := List.mem_map.1 hu'
      simp [V.subs] at h
      subst h
      exact .step (.refl _) (.key hu)
    · obtain ⟨u, hu, h⟩ := reach_subss m uni vs hv.2 w hw
      exact .trans (.step (.refl _) (.value hu)) h
  | obj t ns vs =>
    simp only [V.subs, List.mem_cons] at hw
    simp only [wf] at hv
    rcases hw with rfl | hw
    · exact .refl _
    · obtain ⟨u, hu, h⟩ := reach_subss m uni vs hv.2 w hw
      obtain ⟨i, hi, rfl⟩ := List.getElem_of_mem hu
      refine .trans (.step (.refl _) (.attr (n := ns[i]'(by omega)) ?_)) h
      apply List.mem_of_getElem? (i := i)
      rw [List.getElem?_zip_eq_some]
      exact ⟨List.getElem?_eq_getElem (by omega), List.getElem?_eq_getElem hi⟩
  | link a b =>
    simp only [V.subs, List.mem_cons, List.not_mem_nil, or_false] at hw
    rcases hw with rfl | rfl | rfl
    · exact .refl _
    · exact .step (.refl _) .scope
    · exact .step (.refl _) .id
  | _ => simp [V.subs] at hw; subst hw; exact .refl _
termination_by structural v
theorem reach_subss (m : Mem) (uni : Bool) (l : List V) (hl : wfs l) (w : V) (hw : w ∈ subss l) : ∃ u ∈ l, Reachable m uni u w := by
  cases l with
  | nil => simp [subss] at hw
  | cons v vs =>
    simp only [subss, List.mem_append] at hw
    simp only [wfs] at hl
    rcases hw with hw | hw
    · exact ⟨v, by simp, reach_subs m uni v hl.1 w hw⟩
    · obtain ⟨u, hu, h⟩ := reach_subss m uni vs hl.2 w hw
      exact ⟨u, by simp [hu], h⟩
termination_by structural l
end

/-- what occurs in the attributes of an entity that is in reach, is in reach -/
theorem reach_asDict {env : Env} {m : Mem} {uni : Bool} (hT : WellTyped env m) {root : V} {o : Nat} {x : EObj} (hx : m[o]? = some x)
    (ho : Reachable m uni root (.ref o)) {e : String × V} (he : e ∈ asDict m x) (hv : wf e.2) {p : Nat} (hp : V.ref p ∈ e.2.subs) :
    Reachable m uni root (.ref p) := by
  obtain ⟨vals, own, hs, hown⟩ := hT o x hx
  have hd := asDict_eq hs m
  rw [hd] at he
  simp only [List.mem_cons, List.mem_append] at he
  rcases he with rfl | rfl | h | h
  · simp [V.subs] at hp
  · simp only [uidsDict, V.subs, List.mem_cons, reduceCtorEq, false_or, List.mem_append, mem_subss] at hp
    rcases hp with ⟨w, hw, hp⟩ | ⟨w, hw, hp⟩ <;> (obtain ⟨u, _, rfl⟩ := List.mem_map.1 hw; simp [V.subs] at hp)
  · have hz : e ∈ (((eargs x.cls).zip vals).map (fun e => (e.1.name, e.2))) := by
      rw [List.zip_map_left] at h
      exact h
    obtain ⟨g, hg, rfl⟩ := List.mem_map.1 hz
    have hm := List.of_mem_zip (a := g.1) (b := g.2) hg
    have hfield : (g.1.attr, g.2) ∈ x.fields := by
      rw [hs.fields, List.zip_map_left]
      exact List.mem_append_left _ (List.mem_map.2 ⟨g, hg, rfl⟩)
    have hc : Child m uni (.ref o) g.2 := .field hx hfield (fun h => (eargs_attr x.cls g.1 hm.1).1 h.2)
    exact (ho.step hc).trans (reach_subs m uni g.2 hv _ hp)
  · by_cases hc : x.cls = .ingredientRun
    · obtain ⟨name, labels, e', h1, h2⟩ := ingredientPart_eq hT hs hc (hown hc)
      rw [e'] at h
      simp only [List.mem_cons, List.not_mem_nil, or_false] at h
      rcases h with rfl | rfl
      · exact absurd hp (noRef_subs _ (nameLike_clean (env := env) (m := m) h1).1.wf (nameLike_clean (env := env) (m := m) h1).1.noRef p)
      · exact absurd hp (noRef_subs _ (labelsLike_clean (env := env) (m := m) h2).1.wf (labelsLike_clean (env := env) (m := m) h2).1.noRef p)
    · unfold ingredientPart at h
      rw [if_neg hc] at h
      simp at h

/-! ## Stripping all -/

theorem getattr_append {env : Env} {m : Mem} {x : EObj} {vals : List V} {own : List (String × V)} (hs : Shape env m x vals own) (l : Mem)
    (f : String × V) : getattr (m ++ l) x f = getattr m x f := by
  unfold getattr
  split
  · rename_i hc
    have hk : ∃ a ∈ eargs x.cls, a.attr = "_spec" := by rw [hc.1]; decide +kernel
    obtain ⟨a, v, hz, ha, hg⟩ := get?_arg hs.len own hk
    rw [hs.fields, hg]
    cases v with
    | ref p =>
      have hcv := hs.conv _ hz
      have hp : p < m.length := by
        rcases conv_refs (eargs_kinds _ _ (List.of_mem_zip hz).1).1 hcv (p := p) (self_mem_subs _) with h | ⟨cs, _, h⟩ | ⟨_, _, _, _, _, _, h, _⟩ | ⟨_, _, h⟩
        · exfalso
          have key : ∀ a ∈ eargs .ingredientRun, a.attr = "_spec" → ¬ (a.kind = .raw ∨ a.kind = .probabilities ∨ a.kind = .quantities) := by decide +kernel
          have hm := (List.of_mem_zip hz).1
          rw [hc.1] at hm
          exact key a hm ha h
        · obtain ⟨y, hy, _⟩ := isCls_ref h
          exact (List.getElem?_eq_some_iff.1 hy).1
        · rcases h with h | ⟨_, h, _⟩ <;> cases h
        · rcases h with h | ⟨_, _, _, _, _, h, _⟩
          · obtain ⟨y, hy, _⟩ := isCls_ref h
            exact (List.getElem?_eq_some_iff.1 hy).1
          · cases h
      simp only [List.getElem?_append_left hp]
    | _ => rfl
  · rfl

theorem asDict_append {env : Env} {m : Mem} {x : EObj} {vals : List V} {own : List (String × V)} (hs : Shape env m x vals own) (l : Mem) :
    asDict (m ++ l) x = asDict m x := by
  unfold asDict
  congr 2
  apply List.map_congr_left
  intro f _
  rw [getattr_append hs]

theorem ingredientPart_append {env : Env} {m : Mem} {x : EObj} {vals : List V} {own : List (String × V)} (hs : Shape env m x vals own) (l : Mem) :
    ingredientPart (m ++ l) x own = ingredientPart m x own := by
  unfold ingredientPart
  split
  · apply List.map_congr_left
    intro f _
    rw [getattr_append hs]
  · rfl

theorem Copy.append {env : Env} {m : Mem} {f : Nat → V} {x y : EObj} (h : Copy env m f x y) (l : Mem) : Copy env (m ++ l) f x y := by
  obtain ⟨vals, own, ws, name, labels, hs, h1, h2, h3, h4, h5, h6, h7, h8⟩ := h
  have hg := Grows.append m l
  refine ⟨vals, own, ws, name, labels, hs.grows hg, h1, h2, h3, fun w hw => (h4 w hw).grows hg, ?_, h6, h7, ?_⟩
  · intro p hp
    exact conv_grows hg (eargs_kinds _ _ (List.of_mem_zip (a := p.1) (b := p.2) hp).1).1 (h5 p hp)
  · rw [ingredientPart_append hs]; exact h8

theorem Copy.wellTyped {env : Env} {m : Mem} {f : Nat → V} {x y : EObj} (hT : WellTyped env m) (h : Copy env m f x y) : WellTyped env (m ++ [y]) := by
  obtain ⟨vals, own, ws, name, labels, hs, rfl, h2, h3, h4, h5, h6, h7, h8⟩ := h
  refine hT.append (copy_shape (Grows.refl m) hs.uids h2 h4 h5 name labels) ?_
  intro hc
  have hc : x.cls = .ingredientRun := hc
  exact ⟨name, labels, by unfold loadedOwn; rw [if_pos hc], h6, h7⟩

/-- what it takes to strip an entity -/
structure Ready (m : Mem) (o : Nat) (x : EObj) : Prop where
  here : m[o]? = some x
  plain : ∀ e ∈ asDict m x, wf e.2 ∧ noTuple e.2
  refs : ∀ e ∈ asDict m x, ∀ p, V.ref p ∈ e.2.subs → p ≠ o ∧ ∃ y, m[p]? = some y ∧ y.uids ≠ []

theorem get_append {m : Mem} {o : Nat} {x : EObj} (h : m[o]? = some x) (l : Mem) : (m ++ l)[o]? = some x := by
  rw [List.getElem?_append_left (List.getElem?_eq_some_iff.1 h).1]
  exact h

theorem strip_copy {env : Env} {m extra : Mem} (hT : WellTyped env m) (hTM : WellTyped env (m ++ extra)) {o : Nat} {x : EObj} (hr : Ready m o x) :
    ∃ y, substituteLinks env none true (m ++ extra) (.ref o) = .ok (.ref (m ++ extra).length, m ++ extra ++ [y]) ∧
      Copy env (m ++ extra) (linkOf env.lower none true m) x y := by
  obtain ⟨vals, own, hs, hown⟩ := hT o x hr.here
  have hd := asDict_eq hs m
  have hmem : ∀ v ∈ vals, ∃ f ∈ asDict m x, f.2 = v := by
    intro v hv
    have : v ∈ (((eargs x.cls).map EArg.name).zip vals).map Prod.snd := by
      rw [List.map_snd_zip (by simp [hs.len])]; exact hv
    obtain ⟨f, hf, rfl⟩ := List.mem_map.1 this
    exact ⟨f, by rw [hd]; simp [hf], rfl⟩
  have hs' := hs.grows (Grows.append m extra)
  obtain ⟨ws, name, labels, h1, h2⟩ := strip_entity (scope := none) (fallback := true) (f := linkOf env.lower none true m) hTM o x
    (get_append hr.here extra) vals own hs' hown (by
    refine ⟨?_, ?_, ?_⟩
    · intro v hv
      obtain ⟨f, hf, rfl⟩ := hmem v hv
      exact hr.plain f hf
    · exact noType_uids (hr.plain ("uids", uidsDict x.uids) (by rw [hd]; simp)).1
    · intro v hv p hp
      obtain ⟨f, hf, rfl⟩ := hmem v hv
      obtain ⟨h1, y, hy, hu⟩ := hr.refs f hf p hp
      obtain ⟨s, i, e1, e2, _⟩ := linkOf_ok (lower := env.lower) (scope := none) (fallback := true) hy ⟨hu, .inl rfl⟩
      exact ⟨h1, y, s, i, get_append hy extra, e1, e2⟩)
  exact ⟨_, h1, vals, own, ws, name, labels, hs', rfl, h2⟩

theorem stripAll_spec {env : Env} {m : Mem} (hT : WellTyped env m) (os : List Nat) (hos : ∀ o ∈ os, ∃ x, Ready m o x) :
    ∀ extra : Mem, WellTyped env (m ++ extra) → ∃ ys, ys.length = os.length ∧
      stripAll env (os.map .ref) (m ++ extra) = .ok ((List.range' (m ++ extra).length ys.length).map .ref, m ++ extra ++ ys) ∧
      WellTyped env (m ++ extra ++ ys) ∧ ∀ i (h1 : i < os.length) (h2 : i < ys.length), ∃ x, m[os[i]]? = some x ∧
        Copy env (m ++ extra ++ ys) (linkOf env.lower none true m) x ys[i] := by
  induction os with
  | nil => intro extra h; exact ⟨[], rfl, by simp [stripAll], by simpa using h, by simp⟩
  | cons o os ih =>
    intro extra hTM
    obtain ⟨x, hr⟩ := hos o (by simp)
    obtain ⟨y, h1, h2⟩ := strip_copy hT hTM hr
    have hTM' := h2.wellTyped hTM
    obtain ⟨ys, hl, h3, h4, h5⟩ := ih (fun o ho => hos o (by simp [ho])) (extra ++ [y]) (by simpa using hTM')
    refine ⟨y :: ys, by simp [hl], ?_, by simpa using h4, ?_⟩
    · simp only [List.map_cons, stripAll, h1]
      have e : m ++ extra ++ [y] = m ++ (extra ++ [y]) := by simp
      rw [e, h3]
      simp only [List.length_cons, List.range'_succ, List.map_cons]
      congr 2
      · congr 1
        congr 1
        simp
        omega
      · simp
    · intro i hi1 hi2
      cases i with
      | zero =>
        refine ⟨x, hr.here, ?_⟩
        have := h2.append (y :: ys)
        simpa using this
      | succ i =>
        simp only [List.length_cons, Nat.add_lt_add_iff_right] at hi1 hi2
        obtain ⟨x', hx', hc⟩ := h5 i hi1 hi2
        exact ⟨x', by simpa using hx', by simpa using hc⟩

/-! ## flatten -/

/-- The object graphs considered: attributes hold what their setters store; no tuples, no dictionary keys `type`; and entities occur only where attributes
are meant to hold them (not in notes, say). -/
structure Flattenable (env : Env) (m : Mem) (root : V) : Prop where
  typed : WellTyped env m
  flat : NoListInTuple m false root
  plain : ∀ o x, m[o]? = some x → Reachable m false root (.ref o) → ∀ e ∈ asDict m x, wf e.2 ∧ noTuple e.2
  free : ∀ o x, m[o]? = some x → Reachable m false root (.ref o) → FreePlain (asDict m x) ∧ ∀ e ∈ asDict m x, FreeInside e.2

/-- every entity in reach has an id -/
def Identified (m : Mem) (root : V) : Prop := ∀ o x, m[o]? = some x → Reachable m false root (.ref o) → x.uids ≠ []

theorem Flattenable.ready {env : Env} {m : Mem} {root : V} (h : Flattenable env m root) (hu : Identified m root) {o : Nat} {x : EObj} (hx : m[o]? = some x)
    (ho : Reachable m false root (.ref o)) : Ready m o x := by
  refine ⟨hx, h.plain o x hx ho, ?_⟩
  intro e he p hp
  obtain ⟨h1, h2⟩ := h.free o x hx ho
  obtain ⟨y, hy, hlt⟩ := forward_refs h.typed hx h1 h2 he hp
  refine ⟨?_, y, hy, hu p y hy (reach_asDict h.typed hx ho he (h.plain o x hx ho e he).1 hp)⟩
  rintro rfl
  rw [hx] at hy
  cases hy
  omega

theorem Flattenable.links {env : Env} {m : Mem} {root : V} (h : Flattenable env m root) (hu : Identified m root) {o : Nat} {x : EObj} (hx : m[o]? = some x)
    (ho : Reachable m false root (.ref o)) : ∀ e ∈ asDict m x, ∀ p, V.ref p ∈ e.2.subs → LinkTo env.lower m p (linkOf env.lower none true m p) := by
  intro e he p hp
  obtain ⟨_, y, hy, hne⟩ := (h.ready hu hx ho).refs e he p hp
  obtain ⟨s, i, _, e2, e3⟩ := linkOf_ok (lower := env.lower) (scope := none) (fallback := true) hy ⟨hne, .inl rfl⟩
  exact ⟨s, i, e2, e3⟩

theorem keepNew_same {s : Mem × List (String × String)} {x : V} {s' : Mem × List (String × String)} {r : List V} (h : keepNew s x = .ok (s', r)) :
    SameGraph s.1 s'.1 := by
  unfold keepNew at h
  split at h
  · split at h
    · cases h
    · split at h
      · cases h
      · cases h; exact rfl
  · cases h

theorem refs_of {order : List V} {n : Nat} (h : ∀ x ∈ order, ∃ o, o < n ∧ x = V.ref o) : ∃ os : List Nat, order = os.map .ref := by
  induction order with
  | nil => exact ⟨[], rfl⟩
  | cons v vs ih =>
    obtain ⟨o, _, rfl⟩ := h v (by simp)
    obtain ⟨os, rfl⟩ := ih (fun x hx => h x (by simp [hx]))
    exact ⟨o :: os, rfl⟩

/-- what `flatten` does: `order` is the order in which entities are visited -/
theorem flatten_core {env : Env} {m : Mem} {root : V} (h : Flattenable env m root) (hu : Identified m root) :
    ∃ n order ys, order.Nodup ∧ (∀ o, o ∈ order ↔ o < m.length ∧ Reachable m false root (.ref o)) ∧ ys.length = (kept m [] order).length ∧
      (∀ n' ≥ n, flattenSet env n' m root = some (.ok (sortBy (orderOf (m ++ ys)) ((List.range' m.length ys.length).map .ref), m ++ ys))) ∧
      WellTyped env (m ++ ys) ∧
      ∀ i (h1 : i < (kept m [] order).length) (h2 : i < ys.length), ∃ x, m[(kept m [] order)[i]]? = some x ∧
        Copy env (m ++ ys) (linkOf env.lower none true m) x ys[i] := by
  obtain ⟨n, order, h1, h2, h3⟩ := C37_collects_all_once_partial m ([] : List (String × String)) root false keepNew (fun _ _ _ _ h => keepNew_same h) h.flat
  obtain ⟨os, rfl⟩ := refs_of (fun x hx => ((h2 x).1 hx).1)
  have hmem : ∀ o, o ∈ os ↔ o < m.length ∧ Reachable m false root (.ref o) := by
    intro o
    have := h2 (.ref o)
    rw [List.mem_map] at this
    constructor
    · intro ho
      obtain ⟨⟨o', hlt, e⟩, hr⟩ := this.1 ⟨o, ho, rfl⟩
      cases e
      exact ⟨hlt, hr⟩
    · intro ⟨hlt, hr⟩
      obtain ⟨o', ho', e⟩ := this.2 ⟨⟨o, hlt, rfl⟩, hr⟩
      cases e
      exact ho'
  have hget : ∀ o ∈ os, ∃ x, m[o]? = some x ∧ Reachable m false root (.ref o) := by
    intro o ho
    obtain ⟨hlt, hr⟩ := (hmem o).1 ho
    exact ⟨m[o], List.getElem?_eq_getElem hlt, hr⟩
  obtain ⟨known, hcalls⟩ := keep_calls m os (fun o ho => by
    obtain ⟨x, hx, hr⟩ := hget o ho
    exact ⟨x, hx, hu o x hx hr⟩) [] []
  obtain ⟨ys, hl, s1, s2, s3⟩ := stripAll_spec h.typed (kept m [] os) (fun o ho => by
    obtain ⟨x, hx, hr⟩ := hget o ((kept_sublist m [] os).subset ho)
    exact ⟨x, h.ready hu hx hr⟩) [] (by simpa using h.typed)
  simp only [List.append_nil] at s1 s2 s3
  refine ⟨n, os, ys, ?_, hmem, hl, ?_, s2, s3⟩
  · rw [List.Nodup, List.pairwise_map] at h1
    exact h1.imp (fun h e => h (by rw [e]))
  · intro n' hn'
    unfold flattenSet distinct
    rw [h3 n' hn', hcalls]
    simp only [List.nil_append, s1]

theorem uidsAt_some {m : Mem} {o : Nat} {x : EObj} (h : m[o]? = some x) : uidsAt m o = x.uids := by simp [uidsAt, h]

end Verif.Substitute
