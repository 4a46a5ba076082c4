import Verif.Props.ReadCopy
import Verif.Props.FlattenProps
/-!
# C57: `raw_loads(raw_dumps(x))`
-/

set_option linter.unusedSimpArgs false
set_option linter.unusedVariables false
set_option linter.unusedSectionVars false

namespace Verif.Json
open Verif.Py Verif.Value Verif.Schema Verif.Substitute

/-! ## The specification -/

/-- the entity `o` has the entity `p` in one of its attributes -/
def Holds (m : Mem) (o p : Nat) : Prop := ∃ x, m[o]? = some x ∧ ∃ e ∈ asDict m x, V.ref p ∈ e.2.subs

/-- the entity `o` has the entity `p` in one of its attributes, or in one of theirs, and so on -/
inductive Inside (m : Mem) : Nat → Nat → Prop where
  | child {o p : Nat} : Holds m o p → Inside m o p
  | deeper {o q p : Nat} : Holds m o q → Inside m q p → Inside m o p

/-- the entity `o` occurs in the value `v`, or in an entity that does -/
def Nested (m : Mem) (v : V) (o : Nat) : Prop := V.ref o ∈ v.subs ∨ ∃ q, V.ref q ∈ v.subs ∧ Inside m q o

theorem Inside.trans {m : Mem} {o q p : Nat} (h : Inside m o q) (h' : Inside m q p) : Inside m o p := by
  induction h with
  | child h => exact .deeper h h'
  | deeper h _ ih => exact .deeper h (ih h')

theorem Inside.head {m : Mem} {o p : Nat} (h : Inside m o p) : ∃ q, Holds m o q ∧ (q = p ∨ Inside m q p) := by
  cases h with
  | child h => exact ⟨_, h, .inl rfl⟩
  | deeper h h' => exact ⟨_, h, .inr h'⟩

theorem Nested.step {m : Mem} {v : V} {o p : Nat} (h : Nested m v o) (h' : Holds m o p) : Nested m v p := by
  rcases h with h | ⟨q, h1, h2⟩
  · exact .inr ⟨o, h, .child h'⟩
  · exact .inr ⟨q, h1, h2.trans (.child h')⟩

/-- What is asked of a value: its objects, and the attributes of the entities nested in it, are what constructors and setters accept and store; there are no
tuples and no dictionaries with a key `type`. -/
structure Copyable (env : Env) (m : Mem) (v : V) : Prop where
  typed : WellTyped env m
  there : ∀ o, Nested m v o → o < m.length
  wf : wf v
  noTuple : noTuple v
  ok : okV env m v
  plain : ∀ o x, m[o]? = some x → Nested m v o → ∀ e ∈ asDict m x, Json.wf e.2 ∧ Json.noTuple e.2

/-- `w` is an entity, a copy of `o` -/
def CopyOf (ψ : Nat → Nat) (o : Nat) (w : V) : Prop := ∃ p, w = .ref p ∧ ψ p = o

/-- From number `n` on, `m'` consists of copies of entities of `m`: `ψ` says of which. A copy has the class of the original and the same attributes (the
ids among them), with copies for entities. -/
def AllCopies (m : Mem) (ψ : Nat → Nat) (n : Nat) (m' : Mem) : Prop := ∀ p z, n ≤ p → m'[p]? = some z → ∃ x, m[ψ p]? = some x ∧ z.cls = x.cls ∧
  (asDict m' z).map Prod.fst = (asDict m x).map Prod.fst ∧ alikes (CopyOf ψ) SameLink ((asDict m x).map Prod.snd) ((asDict m' z).map Prod.snd) ∧
  ∀ e ∈ asDict m' z, ∀ q, V.ref q ∈ e.2.subs → n ≤ q ∧ q < p

/-! ## Copies are alike -/

section
variable {ψ : Nat → Nat} {L : Nat → V → Prop} {G : String → String → V → Prop}

mutual
theorem alike_unvia (v u : V) (hw : wf u) (ht : noTuple u) (h : alike L G v (via ψ u)) :
    alike (fun o w => L o (via ψ w)) (fun s i w => G s i (via ψ w)) v u := by
  cases v with
  | none => simp only [alike] at h ⊢; exact via_none h
  | str s =>
    simp only [alike] at h ⊢
    exact nameLike_img (ψ := ψ) (v := .str s) (.inr rfl) (by unfold Img; rw [h])
  | bool b => simp only [alike] at h ⊢; rw [num_via] at h; exact h
  | int i => simp only [alike] at h ⊢; rw [num_via] at h; exact h
  | float q => simp only [alike] at h ⊢; rw [num_via] at h; exact h
  | link s i => simp only [alike] at h ⊢; exact h
  | ref o => simp only [alike] at h ⊢; exact h
  | list l =>
    simp only [alike] at h ⊢
    obtain ⟨l', e, hl⟩ := h
    obtain ⟨us, rfl, e'⟩ := via_list ht e
    subst e'
    simp only [wf, noTuple] at hw ht
    exact ⟨us, rfl, alikes_unvia l us hw ht hl⟩
  | tuple l =>
    simp only [alike] at h ⊢
    obtain ⟨l', e, hl⟩ := h
    exfalso
    unfold via at e
    cases u with
    | dict ks vs =>
      simp only [tr] at e
      obtain ⟨_, _, e2⟩ := sortDict_dict ks (trs (fun p => V.ref (ψ p)) .link vs)
      rw [e2] at e
      cases e
    | _ => simp [tr] at e
  | obj t ns vs =>
    simp only [alike] at h ⊢
    obtain ⟨vs', e, hl⟩ := h
    unfold via at e
    cases u with
    | dict ks vs =>
      simp only [tr] at e
      obtain ⟨_, _, e2⟩ := sortDict_dict ks (trs (fun p => V.ref (ψ p)) .link vs)
      rw [e2] at e
      cases e
    | obj t' ns' us =>
      simp only [tr, V.obj.injEq, trs_eq] at e
      obtain ⟨rfl, rfl, rfl⟩ := e
      simp only [wf, noTuple] at hw ht
      exact ⟨us, rfl, alikes_unvia vs us hw.2 ht hl⟩
    | _ => simp [tr] at e
  | dict ks vs =>
    simp only [alike] at h ⊢
    obtain ⟨ks', vs', ps, e, hl, hp, hk, hv⟩ := h
    unfold via at e
    cases u with
    | dict ks0 us =>
      simp only [wf, noTuple] at hw ht
      obtain ⟨⟨hl0, names, hs, hnd, _⟩, hw⟩ := hw
      simp only [tr, trs_eq, sortDict, hs] at e
      have hln : names.length = us.length := by rw [← hl0, strings_eq hs]; simp
      have key : (ks'.zip vs').Perm ((ks0.zip us).map (fun e => (e.1, via ψ e.2))) := by
        have e1 : ks'.zip vs' = (sortFields (names.zip (us.map (via ψ)))).map (fun f => (V.str f.1, f.2)) := by
          simp only [mkDict, V.dict.injEq] at e
          obtain ⟨rfl, rfl⟩ := e
          rw [List.zip_map']
          rfl
        rw [e1]
        refine ((sortFields_perm _).map _).trans ?_
        rw [strings_eq hs, List.zip_map_left, List.map_map, ← onSnd_zip]
        unfold onSnd
        rw [List.map_map]
        exact List.Perm.of_eq (List.map_congr_left (fun _ _ => rfl))
      obtain ⟨qs, q1, q2⟩ := perm_unmap (fun e : V × V => (e.1, via ψ e.2)) (hp.trans key) (ks0.zip us) rfl
      have hmem : ∀ x ∈ qs.map Prod.snd, x ∈ us := by
        intro x hx
        obtain ⟨e, he, rfl⟩ := List.mem_map.1 hx
        exact (List.of_mem_zip (a := e.1) (b := e.2) (q1.mem_iff.1 he)).2
      refine ⟨ks0, us, qs, rfl, hl0, q1, ?_, ?_⟩
      · rw [← hk, q2]; simp
      · have e1 : ps.map Prod.snd = (qs.map Prod.snd).map (via ψ) := by rw [q2]; simp
        rw [e1] at hv
        refine alikes_unvia vs _ ?_ ?_ hv
        · rw [wfs_iff] at hw ⊢; exact fun x hx => hw x (hmem x hx)
        · rw [noTuples_iff] at ht ⊢; exact fun x hx => ht x (hmem x hx)
    | _ => simp [tr] at e
termination_by structural v
theorem alikes_unvia (l us : List V) (hw : wfs us) (ht : noTuples us) (h : alikes L G l (us.map (via ψ))) :
    alikes (fun o w => L o (via ψ w)) (fun s i w => G s i (via ψ w)) l us := by
  cases l with
  | nil =>
    simp only [alikes, List.map_eq_nil_iff] at h ⊢
    exact h
  | cons v vs =>
    simp only [alikes] at h ⊢
    obtain ⟨w, ws, e, h1, h2⟩ := h
    cases us with
    | nil => simp at e
    | cons u us =>
      simp only [List.map_cons, List.cons.injEq] at e
      obtain ⟨rfl, rfl⟩ := e
      simp only [wfs, noTuples] at hw ht
      exact ⟨u, us, rfl, alike_unvia v u hw.1 ht.1 h1, alikes_unvia vs us hw.2 ht.2 h2⟩
termination_by structural l
end

end

theorem via_link {ψ : Nat → Nat} {w : V} {s i : String} (h : via ψ w = .link s i) : w = .link s i := by
  unfold via at h
  cases w with
  | dict ks vs =>
    simp only [tr] at h
    obtain ⟨_, _, e2⟩ := sortDict_dict ks (trs (fun p => V.ref (ψ p)) .link vs)
    rw [e2] at h
    cases h
  | link s' i' => simpa [tr] using h
  | _ => simp [tr] at h

theorem alike_img {ψ : Nat → Nat} {v u : V} (h : Img ψ v u) (hv : wf v) (tv : noTuple v) (hu : wf u) (tu : noTuple u) : alike (CopyOf ψ) SameLink v u := by
  have h1 : nf (via ψ u) = nf (tr .ref .link v) := by
    rw [nf_tr v hv]; exact h
  have h2 := alike_nf (f := .ref) (g := .link) v (via ψ u) hv tv (wf_via hu) (noTuple_via hu) (fun _ _ => trivial) (fun _ _ _ => trivial) h1
  exact alike_mono v u (fun o w _ h => via_ref h) (fun s i w _ h => via_link h) (alike_unvia v u hu tu h2)

theorem Twin.alike {M mem : Mem} {base p : Nat} {ψ : Nat → Nat} {z x : EObj} (h : Twin M mem base p ψ z x) (hn : ((asDict M x).map Prod.fst).Nodup)
    (hp : ∀ e ∈ asDict M x, wf e.2 ∧ noTuple e.2) : alikes (CopyOf ψ) SameLink ((asDict M x).map Prod.snd) ((asDict mem z).map Prod.snd) := by
  have gen : ∀ (fs gs : List (String × V)), gs.map Prod.fst = fs.map Prod.fst → (fs.map Prod.fst).Nodup → (∀ f ∈ fs, wf f.2 ∧ noTuple f.2) →
      (∀ f ∈ fs, ∃ u, (f.1, u) ∈ gs ∧ Img ψ f.2 u) → (∀ g ∈ gs, wf g.2 ∧ noTuple g.2) → alikes (CopyOf ψ) SameLink (fs.map Prod.snd) (gs.map Prod.snd) := by
    intro fs
    induction fs with
    | nil =>
      intro gs h1 _ _ _ _
      simp only [List.map_nil, List.map_eq_nil_iff] at h1
      subst h1
      simp [alikes]
    | cons f fs ih =>
      intro gs h1 h2 h3 h4 h5
      cases gs with
      | nil => simp at h1
      | cons g gs =>
        simp only [List.map_cons, List.cons.injEq, List.nodup_cons] at h1 h2 ⊢
        simp only [alikes]
        refine ⟨g.2, gs.map Prod.snd, rfl, ?_, ih gs h1.2 h2.2 (fun f hf => h3 f (by simp [hf])) ?_ (fun g hg => h5 g (by simp [hg]))⟩
        · obtain ⟨u, hu, hi⟩ := h4 f (by simp)
          have : u = g.2 := by
            rcases List.mem_cons.1 hu with e | e
            · exact congrArg Prod.snd e
            · exact absurd (List.mem_map.2 ⟨_, e, rfl⟩) (by rw [h1.2]; exact h2.1)
          subst this
          exact alike_img hi (h3 f (by simp)).1 (h3 f (by simp)).2 (h5 g (by simp)).1 (h5 g (by simp)).2
        · intro f' hf'
          obtain ⟨u, hu, hi⟩ := h4 f' (by simp [hf'])
          refine ⟨u, ?_, hi⟩
          rcases List.mem_cons.1 hu with e | e
          · exfalso
            apply h2.1
            have := congrArg Prod.fst e
            simp only at this
            rw [← h1.1, ← this]
            exact List.mem_map.2 ⟨f', hf', rfl⟩
          · exact e
  exact gen _ _ h.names hn hp h.fields (fun g hg => ⟨(h.plain g hg).1, (h.plain g hg).2.1⟩)

/-! ## When `raw_dumps` returns -/

section
variable {E : Nat → Except PyErr V}
mutual
theorem enc_total (v : V) (hw : wf v) (h : ∀ q, V.ref q ∈ v.subs → ∃ t, E q = .ok t) : ∃ t, enc E v = .ok t := by
  cases v with
  | list l =>
    simp only [wf] at hw
    obtain ⟨ts, e⟩ := encs_total l hw (fun q hq => h q (by simp [V.subs, hq]))
    exact ⟨_, by simp only [enc, e]; rfl⟩
  | tuple l =>
    simp only [wf] at hw
    obtain ⟨ts, e⟩ := encs_total l hw (fun q hq => h q (by simp [V.subs, hq]))
    exact ⟨_, by simp only [enc, e]; rfl⟩
  | dict ks vs =>
    simp only [wf] at hw
    obtain ⟨⟨_, names, hs, _⟩, hw⟩ := hw
    obtain ⟨ts, e⟩ := encs_total vs hw (fun q hq => h q (by simp [V.subs, hq]))
    exact ⟨_, by simp only [enc, hs, e]; rfl⟩
  | obj t ns vs =>
    simp only [wf] at hw
    obtain ⟨ts, e⟩ := encs_total vs hw.2 (fun q hq => h q (by simp [V.subs, hq]))
    exact ⟨_, by simp only [enc, e]; rfl⟩
  | ref o => simp only [enc]; exact h o (self_mem_subs _)
  | _ => exact ⟨_, rfl⟩
termination_by structural v
theorem encs_total (l : List V) (hw : wfs l) (h : ∀ q, V.ref q ∈ subss l → ∃ t, E q = .ok t) : ∃ ts, encs E l = .ok ts := by
  cases l with
  | nil => exact ⟨_, rfl⟩
  | cons v vs =>
    simp only [wfs] at hw
    obtain ⟨t, e⟩ := enc_total v hw.1 (fun q hq => h q (by simp [subss, hq]))
    obtain ⟨ts, e'⟩ := encs_total vs hw.2 (fun q hq => h q (by simp [subss, hq]))
    exact ⟨_, by simp only [encs, e, e']; rfl⟩
termination_by structural l
end

mutual
theorem enc_refs (v : V) (hw : wf v) (t : V) (h : enc E v = .ok t) : ∀ q, V.ref q ∈ v.subs → ∃ t, E q = .ok t := by
  intro q hq
  cases v with
  | list l =>
    simp only [wf] at hw
    simp only [enc] at h
    split at h
    · cases h
    · rename_i ts hts
      simp only [V.subs, List.mem_cons, reduceCtorEq, false_or] at hq
      exact encs_refs l hw ts hts q hq
  | tuple l =>
    simp only [wf] at hw
    simp only [enc] at h
    split at h
    · cases h
    · rename_i ts hts
      simp only [V.subs, List.mem_cons, reduceCtorEq, false_or] at hq
      exact encs_refs l hw ts hts q hq
  | dict ks vs =>
    simp only [wf] at hw
    obtain ⟨⟨_, names, hs, _⟩, hw⟩ := hw
    simp only [enc, hs] at h
    split at h
    · cases h
    · rename_i ts hts
      simp only [V.subs, List.mem_cons, reduceCtorEq, false_or, List.mem_append] at hq
      rcases hq with hq | hq
      · exfalso
        rw [strings_eq hs] at hq
        obtain ⟨w, hw, hq⟩ := mem_subss.1 hq
        obtain ⟨s, _, rfl⟩ := List.mem_map.1 hw
        simp [V.subs] at hq
      · exact encs_refs vs hw ts hts q hq
  | obj t ns vs =>
    simp only [wf] at hw
    simp only [enc] at h
    split at h
    · cases h
    · rename_i ts hts
      simp only [V.subs, List.mem_cons, reduceCtorEq, false_or] at hq
      exact encs_refs vs hw.2 ts hts q hq
  | ref o =>
    simp only [V.subs, List.mem_cons, V.ref.injEq, List.not_mem_nil, or_false] at hq
    subst hq
    exact ⟨t, by simpa [enc] using h⟩
  | _ => simp [V.subs] at hq
termination_by structural v
theorem encs_refs (l : List V) (hw : wfs l) (ts : List V) (h : encs E l = .ok ts) : ∀ q, V.ref q ∈ subss l → ∃ t, E q = .ok t := by
  intro q hq
  cases l with
  | nil => simp [subss] at hq
  | cons v vs =>
    simp only [wfs] at hw
    simp only [encs] at h
    split at h
    · cases h
    · rename_i w hw'
      split at h
      · cases h
      · rename_i ws hws
        simp only [subss, List.mem_append] at hq
        rcases hq with hq | hq
        · exact enc_refs v hw.1 w hw' q hq
        · exact encs_refs vs hw.2 ws hws q hq
termination_by structural l
end
end

theorem wfs_snd {fs : List (String × V)} (h : ∀ e ∈ fs, wf e.2) : wfs (fs.map Prod.snd) := by
  rw [wfs_iff]
  intro v hv
  obtain ⟨e, he, rfl⟩ := List.mem_map.1 hv
  exact h e he

/-- an entity is written if those in its attributes are -/
theorem encRef_succ {m : Mem} {o : Nat} {x : EObj} (hx : m[o]? = some x) (hw : ∀ e ∈ asDict m x, wf e.2) (k : Nat) :
    (∃ t, encRef m (k + 1) o = .ok t) ↔ ∀ q, Holds m o q → ∃ t, encRef m k q = .ok t := by
  have hh : ∀ q, Holds m o q ↔ V.ref q ∈ subss ((asDict m x).map Prod.snd) := by
    intro q
    constructor
    · rintro ⟨x', hx', e, he, hq⟩
      rw [hx] at hx'
      cases hx'
      exact mem_subss.2 ⟨e.2, List.mem_map.2 ⟨e, he, rfl⟩, hq⟩
    · intro h
      obtain ⟨w, hw, hq⟩ := mem_subss.1 h
      obtain ⟨e, he, rfl⟩ := List.mem_map.1 hw
      exact ⟨x, hx, e, he, hq⟩
  constructor
  · rintro ⟨t, ht⟩ q hq
    simp only [encRef, hx] at ht
    split at ht
    · cases ht
    · rename_i ts hts
      exact encs_refs _ (wfs_snd hw) ts hts q ((hh q).1 hq)
  · intro h
    obtain ⟨ts, e⟩ := encs_total (E := encRef m k) _ (wfs_snd hw) (fun q hq => h q ((hh q).2 hq))
    exact ⟨_, by simp only [encRef, hx, e]; rfl⟩

/-- how many entities are inside an entity -/
noncomputable def size (m : Mem) (o : Nat) : Nat := ((List.range m.length).filter (fun p => @decide (Inside m o p) (Classical.propDecidable _))).length

theorem size_le (m : Mem) (o : Nat) : size m o ≤ m.length := by
  have := List.length_filter_le (fun p => @decide (Inside m o p) (Classical.propDecidable _)) (List.range m.length)
  simpa [size] using this

open Classical in
theorem size_lt {m : Mem} {o p : Nat} (h : Holds m o p) (hp : p < m.length) (hc : ¬ Inside m p p) : size m p < size m o := by
  unfold size
  have gen : ∀ (l : List Nat) (P Q : Nat → Bool), (∀ a, P a = true → Q a = true) → p ∈ l → P p = false → Q p = true → (l.filter P).length < (l.filter Q).length := by
    intro l P Q hPQ
    have le : ∀ l : List Nat, (l.filter P).length ≤ (l.filter Q).length := by
      intro l
      induction l with
      | nil => simp
      | cons a l ih =>
        simp only [List.filter_cons]
        by_cases hP : P a = true
        · rw [if_pos hP, if_pos (hPQ a hP)]; simp; exact ih
        · rw [if_neg hP]; split
          · simp; omega
          · exact ih
    induction l with
    | nil => simp
    | cons a l ih =>
      intro hm h1 h2
      simp only [List.filter_cons]
      rcases List.mem_cons.1 hm with rfl | hm
      · rw [if_neg (by simp [h1]), if_pos h2]
        have := le l
        simp; omega
      · have := ih hm h1 h2
        by_cases hP : P a = true
        · rw [if_pos hP, if_pos (hPQ a hP)]; simp; exact this
        · rw [if_neg hP]; split
          · simp; omega
          · exact this
  refine gen _ _ _ (fun a ha => ?_) (List.mem_range.2 hp) ?_ ?_
  · have ha' : Inside m p a := of_decide_eq_true ha
    exact decide_eq_true (Inside.deeper h ha')
  · exact decide_eq_false hc
  · exact decide_eq_true (Inside.child h)

theorem encRef_ok {env : Env} {m : Mem} {v : V} (h : Copyable env m v) (hc : ∀ o, Nested m v o → ¬ Inside m o o) (k o : Nat) (ho : Nested m v o)
    (hk : size m o < k) : ∃ t, encRef m k o = .ok t := by
  induction k generalizing o with
  | zero => omega
  | succ k ih =>
    have hx := List.getElem?_eq_getElem (h.there o ho)
    rw [encRef_succ hx (fun e he => (h.plain o _ hx ho e he).1)]
    intro q hq
    have hn := ho.step hq
    have := size_lt hq (h.there q hn) (hc q hn)
    exact ih q hn (by omega)

theorem encRef_acyclic {env : Env} {m : Mem} {v : V} (h : Copyable env m v) (k o : Nat) (ho : Nested m v o) (hc : Inside m o o) (t : V) : encRef m k o ≠ .ok t := by
  induction k generalizing o t with
  | zero => simp [encRef]
  | succ k ih =>
    intro e
    have hx := List.getElem?_eq_getElem (h.there o ho)
    obtain ⟨q, hq, hr⟩ := hc.head
    obtain ⟨t', ht'⟩ := (encRef_succ hx (fun e he => (h.plain o _ hx ho e he).1) k).1 ⟨t, e⟩ q hq
    rcases hr with rfl | hr
    · exact ih _ ho hc t' ht'
    · exact ih q (ho.step hq) (hr.trans (.child hq)) t' ht'

theorem encRef_nested {env : Env} {m : Mem} {v : V} (h : Copyable env m v) {k q : Nat} (hq : Nested m v q) (hk : ∃ t, encRef m k q = .ok t) {o : Nat}
    (ho : Inside m q o) : ∃ k t, encRef m k o = .ok t := by
  induction ho generalizing k with
  | child hh =>
    cases k with
    | zero => simp [encRef] at hk
    | succ k =>
      have hx := List.getElem?_eq_getElem (h.there _ hq)
      obtain ⟨t, ht⟩ := (encRef_succ hx (fun e he => (h.plain _ _ hx hq e he).1) k).1 hk _ hh
      exact ⟨k, t, ht⟩
  | deeper hh _ ih =>
    cases k with
    | zero => simp [encRef] at hk
    | succ k =>
      have hx := List.getElem?_eq_getElem (h.there _ hq)
      exact ih (hq.step hh) ((encRef_succ hx (fun e he => (h.plain _ _ hx hq e he).1) k).1 hk _ hh)

/-- C57: `raw_dumps` returns exactly if no entity is nested in itself -/
theorem C57_dumps {env : Env} {m : Mem} {v : V} (h : Copyable env m v) : (∃ t, rawDumps m v = .ok t) ↔ ∀ o, Nested m v o → ¬ Inside m o o := by
  constructor
  · rintro ⟨t, ht⟩ o ho hc
    have hr := enc_refs v h.wf t ht
    have : ∃ k t, encRef m k o = .ok t := by
      rcases ho with ho | ⟨q, hq, hi⟩
      · obtain ⟨t, ht⟩ := hr o ho
        exact ⟨_, t, ht⟩
      · exact encRef_nested h (.inl hq) (hr q hq) hi
    obtain ⟨k, t', e⟩ := this
    exact encRef_acyclic h k o ho hc t' e
  · intro hc
    refine enc_total v h.wf (fun q hq => encRef_ok h hc _ q (.inl hq) ?_)
    have := size_le m q
    omega

theorem Copyable.source {env : Env} {m : Mem} {v : V} (h : Copyable env m v) : ∀ o, Nested m v o → ∃ x, m[o]? = some x ∧
    ∀ f ∈ asDict m x, Json.wf f.2 ∧ ∀ q, V.ref q ∈ f.2.subs → Nested m v q := by
  intro o ho
  have hx := List.getElem?_eq_getElem (h.there o ho)
  exact ⟨_, hx, fun f hf => ⟨(h.plain o _ hx ho f hf).1, fun q hq => ho.step ⟨_, hx, f, hf, hq⟩⟩⟩

/-- C57: if `raw_dumps` returns, then `raw_loads` of what it wrote, into any memory, returns a copy of the value: nothing that existed is changed, every
new entity is a copy of one nested in the value, and the result is the value with copies in place of entities. -/
theorem C57_raw_copy_partial {env : Env} {m : Mem} {v : V} (h : Copyable env m v) {t : V} (ht : rawDumps m v = .ok t) {m0 : Mem} (hm : WellTyped env m0) :
    ∃ u m' ψ, rawLoads env m0 t = .ok (u, m') ∧ (∀ p, p < m0.length → m'[p]? = m0[p]?) ∧ (∀ p, m0.length ≤ p → p < m'.length → Nested m v (ψ p)) ∧
      AllCopies m ψ m0.length m' ∧ alike (CopyOf ψ) SameLink v u ∧ ∀ p, V.ref p ∈ u.subs → m0.length ≤ p ∧ p < m'.length := by
  obtain ⟨u, m', ψ, e, hC, hg⟩ := raw_copy (S := Nested m v) h.typed h.source h.wf h.ok (fun q hq => .inl hq) ht hm
  refine ⟨u, m', ψ, e, hC.old, ?_, ?_, alike_img hg.img h.wf h.noTuple hg.wf hg.noTuple, hg.refs⟩
  · intro p hp hlt
    obtain ⟨_, _, hn, _⟩ := hC.twin p _ hp (List.getElem?_eq_getElem hlt)
    exact hn
  · intro p z hp hz
    obtain ⟨x, hx, hn, ht⟩ := hC.twin p z hp hz
    refine ⟨x, hx, ht.cls, ht.names, ht.alike ?_ (h.plain _ x hx hn), fun e he q hq => (ht.plain e he).2.2 q hq⟩
    obtain ⟨fs, e, n1, n2, n3⟩ := asDict_names h.typed hx
    rw [e]
    simp only [List.map_cons, List.nodup_cons]
    exact ⟨n2, n1⟩

/-- no entity is nested in itself if entities occur only where attributes are meant to hold them (not in notes, say) -/
theorem C57_no_cycle {env : Env} {m : Mem} {v : V} (hT : WellTyped env m)
    (hf : ∀ o x, m[o]? = some x → Nested m v o → FreePlain (asDict m x) ∧ ∀ e ∈ asDict m x, FreeInside e.2) (o : Nat) (ho : Nested m v o) : ¬ Inside m o o := by
  have step : ∀ o p, Nested m v o → Holds m o p → ∀ x, m[o]? = some x → ∃ y, m[p]? = some y ∧ Substitute.sortOrder y.cls < Substitute.sortOrder x.cls := by
    rintro o p ho ⟨x', hx', e, he, hp⟩ x hx
    have : x' = x := by rw [hx] at hx'; exact (Option.some.inj hx').symm
    subst this
    exact forward_refs hT hx (hf o x' hx ho).1 (hf o x' hx ho).2 he hp
  have all : ∀ o p, Inside m o p → Nested m v o → ∀ x, m[o]? = some x → ∃ y, m[p]? = some y ∧ Substitute.sortOrder y.cls < Substitute.sortOrder x.cls := by
    intro o p h
    induction h with
    | child h => intro ho x hx; exact step _ _ ho h x hx
    | deeper h _ ih =>
      intro ho x hx
      obtain ⟨y, hy, h1⟩ := step _ _ ho h x hx
      obtain ⟨z, hz, h2⟩ := ih (ho.step h) y hy
      exact ⟨z, hz, by omega⟩
  intro hc
  have hx : ∃ x, m[o]? = some x := by
    cases hc with
    | child h => exact ⟨h.choose, h.choose_spec.1⟩
    | deeper h _ => exact ⟨h.choose, h.choose_spec.1⟩
  obtain ⟨x, hx⟩ := hx
  obtain ⟨y, hy, hlt⟩ := all o o hc ho x hx
  rw [hx] at hy
  cases hy
  omega

/-! ## `build` of `dump()` and of `as_dict()`, for entities (C46) -/

/-- what can be written as it is -/
def Text (t : V) : Prop := ∀ E, enc E t = .ok t

theorem text_sorted {l : List (String × V)} (h : ∀ w ∈ l.map Prod.snd, Text w) : Text (mkDict (sortFields l)) := by
  intro E
  apply enc_sorted
  · exact sortFields_sorted _
  · intro w hw
    exact h w (((sortFields_perm _).map Prod.snd).mem_iff.1 hw) E

theorem mem_snd_zip {ns : List String} {ts : List V} {w : V} (h : w ∈ (ns.zip ts).map Prod.snd) : w ∈ ts := by
  obtain ⟨e, he, rfl⟩ := List.mem_map.1 h
  exact (List.of_mem_zip he).2

theorem encs_ident {E : Nat → Except PyErr V} {l : List V} (h : ∀ v ∈ l, enc E v = .ok v) : encs E l = .ok l := by
  induction l with
  | nil => rfl
  | cons v vs ih => simp only [encs, h v (by simp), ih (fun v hv => h v (by simp [hv]))]

section
variable {E E' : Nat → Except PyErr V} (hE : ∀ q t, E q = .ok t → E' q = .ok t)
include hE
mutual
theorem enc_mono (v t : V) (h : enc E v = .ok t) : enc E' v = .ok t := by
  cases v with
  | list l =>
    simp only [enc] at h ⊢
    split at h
    · cases h
    · rename_i ts hts
      rw [encs_mono l ts hts]; exact h
  | tuple l =>
    simp only [enc] at h ⊢
    split at h
    · cases h
    · rename_i ts hts
      rw [encs_mono l ts hts]; exact h
  | dict ks vs =>
    simp only [enc] at h ⊢
    split at h
    · cases h
    · split at h
      · cases h
      · rename_i ts hts
        rw [encs_mono vs ts hts]; exact h
  | obj ty ns vs =>
    simp only [enc] at h ⊢
    split at h
    · cases h
    · rename_i ts hts
      rw [encs_mono vs ts hts]; exact h
  | ref o => simp only [enc] at h ⊢; exact hE o t h
  | _ => simpa only [enc] using h
termination_by structural v
theorem encs_mono (l ts : List V) (h : encs E l = .ok ts) : encs E' l = .ok ts := by
  cases l with
  | nil => simpa only [encs] using h
  | cons v vs =>
    simp only [encs] at h ⊢
    split at h
    · cases h
    · rename_i t ht
      split at h
      · cases h
      · rename_i ts hts
        rw [enc_mono v t ht, encs_mono vs ts hts]; exact h
termination_by structural l
end
end

section
variable {E : Nat → Except PyErr V} (hE : ∀ q t, E q = .ok t → Text t)
include hE
mutual
theorem enc_text (v t : V) (h : enc E v = .ok t) : Text t := by
  cases v with
  | list l =>
    simp only [enc] at h
    split at h
    · cases h
    · rename_i ts hts
      cases h
      intro E'
      simp only [enc, encs_ident (fun w hw => encs_text l ts hts w hw E')]
  | tuple l =>
    simp only [enc] at h
    split at h
    · cases h
    · rename_i ts hts
      cases h
      intro E'
      simp only [enc, encs_ident (fun w hw => encs_text l ts hts w hw E')]
  | dict ks vs =>
    simp only [enc] at h
    split at h
    · cases h
    · split at h
      · cases h
      · rename_i ts hts
        cases h
        exact text_sorted (fun w hw => encs_text vs ts hts w (mem_snd_zip hw))
  | obj ty ns vs =>
    simp only [enc] at h
    split at h
    · cases h
    · rename_i ts hts
      cases h
      refine text_sorted (fun w hw => ?_)
      rw [List.map_cons] at hw
      rcases List.mem_cons.1 hw with rfl | hw
      · intro E'; rfl
      · exact encs_text vs ts hts w (mem_snd_zip hw)
  | ref o => exact hE o t (by simpa [enc] using h)
  | link s i =>
    have := enc_again (fun _ => .error .other) V.ref (.link s i) (by simp [wf]) (by simp [noRef])
    simp only [enc] at h
    cases h
    intro E'
    exact enc_again E' V.ref (.link s i) (by simp [wf]) (by simp [noRef])
  | _ => simp only [enc] at h; cases h; intro E'; rfl
termination_by structural v
theorem encs_text (l ts : List V) (h : encs E l = .ok ts) : ∀ w ∈ ts, Text w := by
  cases l with
  | nil => simp only [encs] at h; cases h; simp
  | cons v vs =>
    simp only [encs] at h
    split at h
    · cases h
    · rename_i t ht
      split at h
      · cases h
      · rename_i ts hts
        cases h
        intro w hw
        rcases List.mem_cons.1 hw with rfl | hw
        · exact enc_text v _ ht
        · exact encs_text vs ts hts w hw
termination_by structural l
end
end

theorem encRef_text (m : Mem) (k o : Nat) (t : V) (h : encRef m k o = .ok t) : Text t := by
  induction k generalizing o t with
  | zero => simp [encRef] at h
  | succ k ih =>
    simp only [encRef] at h
    split at h
    · cases h
    · split at h
      · cases h
      · rename_i ts hts
        cases h
        exact text_sorted (fun w hw => encs_text (fun q t h => ih q t h) _ ts hts w (mem_snd_zip hw))

theorem rawDumps_text {m : Mem} {v t : V} (h : rawDumps m v = .ok t) : Text t := enc_text (fun q t h => encRef_text m _ q t h) v t h

theorem encRef_mono (m : Mem) (k o : Nat) (t : V) (h : encRef m k o = .ok t) : encRef m (k + 1) o = .ok t := by
  induction k generalizing o t with
  | zero => simp [encRef] at h
  | succ k ih =>
    rw [encRef] at h ⊢
    split at h
    · cases h
    · rename_i x hx
      split at h
      · cases h
      · rename_i ts hts
        simp only [encs_mono (fun q t h => ih q t h) _ _ hts]
        exact h

/-- C46: `as_dict()` of an entity is written as the entity is -/
theorem rawDumps_asDict {m : Mem} {o : Nat} {t : V} (h : rawDumps m (.ref o) = .ok t) : rawDumps m (asDictV m (.ref o)) = .ok t := by
  unfold rawDumps at h ⊢
  simp only [enc, encRef] at h
  split at h
  · cases h
  · rename_i x hx
    split at h
    · cases h
    · rename_i ts hts
      simp only [asDictV, hx, mkDict, enc, mkDict_keys, encs_mono (fun q t h => encRef_mono m _ q t h) _ _ hts]
      exact h

/-- `w` is a copy of the value `v` of the memory `m`, made of entities that were added to `m`; the entities of `m` are as they were -/
def BuiltCopy (m : Mem) (v w : V) (m' : Mem) : Prop := ∃ ψ, (∀ p, p < m.length → m'[p]? = m[p]?) ∧ (∀ p, m.length ≤ p → p < m'.length → Nested m v (ψ p)) ∧
  AllCopies m ψ m.length m' ∧ alike (CopyOf ψ) SameLink v w ∧ ∀ p, V.ref p ∈ w.subs → m.length ≤ p ∧ p < m'.length

/-- C46, for entities and for values containing entities: building from the dump gives a copy -/
theorem C46_dump_build_entities_partial {env : Env} {m : Mem} {v : V} (h : Copyable env m v) (hc : ∀ o, Nested m v o → ¬ Inside m o o) :
    ∃ d w m', dump m v = .ok d ∧ build env m d = .ok (w, m') ∧ BuiltCopy m v w m' := by
  obtain ⟨t, ht⟩ := (C57_dumps h).2 hc
  obtain ⟨u, m', ψ, e, h1, h2, h3, h4, h5⟩ := C57_raw_copy_partial h ht h.typed
  refine ⟨t, u, m', ht, ?_, ψ, h1, h2, h3, h4, h5⟩
  have := rawDumps_text ht (encRef m (m.length + 1))
  simp only [build, rawDumps, this, e]

/-- C46: the same for building an entity from its `as_dict()` -/
theorem C46_as_dict_build_entity_partial {env : Env} {m : Mem} {o : Nat} (h : Copyable env m (.ref o)) (hc : ∀ p, Nested m (.ref o) p → ¬ Inside m p p) :
    ∃ w m', build env m (asDictV m (.ref o)) = .ok (w, m') ∧ BuiltCopy m (.ref o) w m' := by
  obtain ⟨t, ht⟩ := (C57_dumps h).2 hc
  obtain ⟨u, m', ψ, e, h1, h2, h3, h4, h5⟩ := C57_raw_copy_partial h ht h.typed
  exact ⟨u, m', by simp only [build, rawDumps_asDict ht, e], ψ, h1, h2, h3, h4, h5⟩

/-! ## Examples -/

theorem copyable_built {env : Env} (hs : Sane env) {m : Mem} (hb : Built env m) {v : V} (hv : Made env m v) (hw : tidy v = true) (hr : ∀ o, V.ref o ∈ v.subs → o < m.length)
    (hm : m.all (fun x => (asDict m x).all (fun e => tidy e.2 && e.2.subs.all (fun w => match w with | .ref p => decide (p < m.length) | _ => true))) = true) : Copyable env m v := by
  have key : ∀ (o : Nat) (x : EObj), m[o]? = some x → ∀ e ∈ asDict m x, (Json.wf e.2 ∧ Json.noTuple e.2) ∧ ∀ p, V.ref p ∈ e.2.subs → p < m.length := by
    intro o x hx e he
    have := List.all_eq_true.1 (List.all_eq_true.1 hm x (List.mem_of_getElem? hx)) e he
    rw [Bool.and_eq_true] at this
    refine ⟨tidy_spec _ this.1, fun p hp => ?_⟩
    have := List.all_eq_true.1 this.2 _ hp
    simpa using this
  have hin : ∀ o p, Inside m o p → p < m.length := by
    intro o p h
    induction h with
    | child h =>
      obtain ⟨x, hx, e, he, hp⟩ := h
      exact (key _ x hx e he).2 _ hp
    | deeper _ _ ih => exact ih
  refine ⟨hb.wellTyped hs, ?_, (tidy_spec v hw).1, (tidy_spec v hw).2, hv.okV hs, fun o x hx _ e he => (key o x hx e he).1⟩
  rintro o (ho | ⟨q, _, ho⟩)
  · exact hr o ho
  · exact hin q o ho


/-- the hypotheses of `C57_raw_copy_partial`, `C57_dumps` and `C57_no_cycle` are met: an ingredient run, twice -/
example : Copyable plainEnv sample (.list [.ref 6, .ref 6]) ∧ (∃ t, rawDumps sample (.list [.ref 6, .ref 6]) = .ok t) ∧ WellTyped plainEnv sample ∧
    (∀ o, Nested sample (.list [.ref 6, .ref 6]) o → ¬ Inside sample o o) ∧ ∀ (o : Nat) (x : EObj), sample[o]? = some x → FreePlain (asDict sample x) ∧
      ∀ e ∈ asDict sample x, FreeInside e.2 := by
  have hc : Copyable plainEnv sample (.list [.ref 6, .ref 6]) := by
    refine copyable_built plainEnv_sane sample_built ?_ (by decide +kernel) ?_ (by decide +kernel)
    · refine Made.list _ (fun v hv => ?_)
      simp at hv
      subst hv
      exact Made.ref _
    · intro o ho
      simp [V.subs, subss] at ho
      subst ho
      rw [sample_eq.2]
      decide
  have hfree : ∀ (o : Nat) (x : EObj), sample[o]? = some x → FreePlain (asDict sample x) ∧ ∀ e ∈ asDict sample x, FreeInside e.2 := by
    have key : sample.all (fun x => Substitute.freeOk (asDict sample x) && (asDict sample x).all (fun e => Substitute.insideOk e.2)) = true := by decide +kernel
    intro o x hx
    have := List.all_eq_true.1 key x (List.mem_of_getElem? hx)
    rw [Bool.and_eq_true] at this
    exact ⟨Substitute.freeOk_spec this.1, fun e he => Substitute.insideOk_spec (List.all_eq_true.1 this.2 e he)⟩
  have hn := C57_no_cycle (v := .list [.ref 6, .ref 6]) hc.typed (fun o x hx _ => hfree o x hx)
  exact ⟨hc, (C57_dumps hc).2 hn, hc.typed, hn, hfree⟩

/-- C57: one entity that occurs twice is copied twice, unlike with `dumps` and `loads` -/
theorem C57_sharing_counterexample : ∃ t m', rawDumps sample (.list [.ref 2, .ref 2]) = .ok t ∧ rawLoads plainEnv [] t = .ok (.list [.ref 0, .ref 1], m') := by
  have : (match rawDumps sample (.list [.ref 2, .ref 2]) with
    | .ok t => (match rawLoads plainEnv [] t with
      | .ok (w, _) => decide (w = .list [.ref 0, .ref 1])
      | .error _ => false)
    | .error _ => false) = true := by decide +kernel
  split at this
  · rename_i t ht
    split at this
    · rename_i w m' hw
      exact ⟨t, m', ht, by rw [hw, of_decide_eq_true this]⟩
    · cases this
  · cases this

/-- an entity whose notes hold it cannot be written -/
example : rawDumps [{ cls := .propertyTemplate, uids := [], fields := [("notes", .ref 0)] }] (.ref 0) = .error .valueError := by decide +kernel

end Verif.Json
