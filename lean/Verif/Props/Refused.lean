import Verif.Model.AssignState
import Verif.Props.EditedEx
/-!
# C67: histories in which assignments are refused
-/

namespace Verif.Assign
open Verif.Py Verif.Value Verif.Schema Verif.Json Verif.Substitute Verif.Inplace

/-- The memories that come from constructor calls, assignments (but not to the bounds of attribute templates), changes to lists and to ids, and from assignments that raise, whatever the value. -/
inductive Tried (env : Env) (same : Mem → Nat → Nat → Bool) : Mem → Prop
  | nil : Tried env same []
  | call (m : Mem) (c : ECls) (kwargs : List (String × V)) (o : Nat) (m' : Mem) : Tried env same m →
      (∀ e ∈ kwargs, Made env m e.2 ∧ strKeys e.2) → constructE env m c kwargs = .ok (o, m') → Tried env same m'
  | assign (m : Mem) (o : Nat) (n : String) (v : V) (m' : Mem) : Tried env same m → Made env m v → strKeys v → n ≠ "bounds" → assignS env same m o n v = (m', none) → Tried env same m'
  | refused (m : Mem) (o : Nat) (n : String) (v : V) (m' : Mem) (e : PyErr) : Tried env same m → assignS env same m o n v = (m', some e) → Tried env same m'
  | change (m : Mem) (o : Nat) (n : String) (l l' : List V) (m' : Mem) : Tried env same m → value m o n = some (.list l) →
      (∀ v ∈ l', v ∈ l ∨ Made env m v) → assignS env same m o n (.list l') = (m', none) → Tried env same m'
  | uids (m : Mem) (o : Nat) (v : V) (m' : Mem) : Tried env same m → assignUids env m o v = .ok m' → Tried env same m'
  | addUid (m : Mem) (o : Nat) (s i : String) (m' : Mem) : Tried env same m → addUid env m o s i = .ok m' → Tried env same m'

section
variable {env : Env} {same : Mem → Nat → Nat → Bool} {m m' : Mem} {o : Nat} {n : String} {v : V}

/-- **C67 (refused)**: the account with the memory at the exception agrees with the one without: it ends in the same memory, or raises when that does. -/
theorem C67_refused_agrees : (assign env same m o n v = .ok m' ↔ assignS env same m o n v = (m', none)) ∧
    ((∃ e, assign env same m o n v = .error e) ↔ ∃ m' e, assignS env same m o n v = (m', some e)) := by
  unfold assign assignS
  cases m[o]? with
  | none => simp
  | some x =>
    simp only
    cases (eargs x.cls).find? (fun a => decide (a.name = n)) with
    | none => simp
    | some a =>
      simp only [setAttr, setAttrS]
      cases conv env m (kindOf x.cls a.attr) v <;> cases unlink same m o x.cls a.attr <;> simp

theorem refused_parts {e : PyErr} (h : assignS env same m o n v = (m', some e)) :
    m' = m ∨ ∃ x a m1, m[o]? = some x ∧ a ∈ eargs x.cls ∧ a.name = n ∧ unlink same m o x.cls a.attr = .ok m1 ∧ conv env m a.kind v = .error e ∧ m' = keepNames m1 o x.cls a.attr := by
  unfold assignS at h
  split at h
  · cases h; exact .inl rfl
  · rename_i x hx
    split at h
    · cases h; exact .inl rfl
    · rename_i a ha
      obtain ⟨h1, h2⟩ := find_name ha
      unfold setAttrS at h
      rw [kindOf_arg h1] at h
      split at h
      · cases h; exact .inl rfl
      · rename_i m1 hm1
        split at h
        · rename_i e' he
          cases h
          exact .inr ⟨x, a, m1, hx, h1, h2, hm1, he, rfl⟩
        · cases h

theorem refused_wellTyped (hW : WellTyped env m) {e : PyErr} (h : assignS env same m o n v = (m', some e)) : WellTyped env m' := by
  rcases refused_parts h with rfl | ⟨x, a, m1, hx, _, _, hu, _, rfl⟩
  · exact hW
  · have hc : clsAt m o = some x.cls := by simp [clsAt, hx]
    obtain ⟨w1, _, s1, _⟩ := unlink_wellTyped hW hu
    exact (keep_wellTyped w1 (by rw [clsAt_skel s1]; exact hc) a.attr).1

theorem refused_backOk (hW : WellTyped env m) (hB : BackOk m) {e : PyErr} (h : assignS env same m o n v = (m', some e)) : BackOk m' := by
  rcases refused_parts h with rfl | ⟨x, a, m1, hx, _, _, hu, _, rfl⟩
  · exact hB
  · have hc : clsAt m o = some x.cls := by simp [clsAt, hx]
    obtain ⟨w1, _, s1, _⟩ := unlink_wellTyped hW hu
    obtain ⟨_, _, s2, f2⟩ := keep_wellTyped w1 (by rw [clsAt_skel s1]; exact hc) a.attr
    have hnames : ∀ n ∈ backNames, n ≠ "_name" ∧ n ≠ "_labels" := by decide
    exact (unlink_backOk hB hu).alike (clsAt_skel s2) (fun q n hn => f2 q n (hnames n hn))

/-- **C67 (refused)**: every attribute holds what its setter stores, also after assignments that raised. -/
theorem C67_refused_well_typed (hs : Sane env) (h : Tried env same m) : WellTyped env m := by
  induction h with
  | nil => intro o x hx; simp at hx
  | call m c kwargs o m' _ hk hc ih => exact (constructE_wellTyped hs ih (fun e he => ⟨(hk e he).1.okV hs, (hk e he).2⟩) hc).1
  | assign m o n v m' _ hv hk hn h ih => exact assign_wellTyped hs ih hn hk (hv.okV hs) (C67_refused_agrees.1.2 h)
  | refused m o n v m' e _ h ih => exact refused_wellTyped ih h
  | change m o n l l' m' _ hl hv h ih => exact assign_wellTyped hs ih (changed_bounds ih hl) (by simp [strKeys]) (changed_ok hs ih hl hv) (C67_refused_agrees.1.2 h)
  | uids m o v m' _ h ih =>
    obtain ⟨x, u, hx, hu, rfl⟩ := uids_parts h
    exact uids_wellTyped ih hx hu
  | addUid m o s i m' _ h ih =>
    obtain ⟨x, u, hx, hu, rfl⟩ := addUid_parts ih h
    exact uids_wellTyped ih hx hu

/-- **C67 (refused)**: a back reference names existing entities of the right class, also after assignments that raised. -/
theorem C67_refused_back_references (hs : Sane env) (h : Tried env same m) : BackOk m := by
  have hT := fun {m} => C67_refused_well_typed (env := env) (same := same) (m := m) hs
  induction h with
  | nil => intro b n v c hn hv; simp [clsAt] at hv
  | call m c kwargs o m' hm hk hc ih => exact call_backOk hs (hT hm) ih (fun e he => ⟨(hk e he).1.okV hs, (hk e he).2⟩) hc
  | assign m o n v m' hm hv hk hn h ih => exact assign_backOk hs (hT hm) ih (C67_refused_agrees.1.2 h)
  | refused m o n v m' e hm h ih => exact refused_backOk (hT hm) ih h
  | change m o n l l' m' hm hl hv h ih => exact assign_backOk hs (hT hm) ih (C67_refused_agrees.1.2 h)
  | uids m o v m' hm h ih =>
    obtain ⟨x, u, hx, hu, rfl⟩ := uids_parts h
    exact ih.alike (uids_attr hx u).2 (fun q n _ => (uids_attr hx u).1 q n)
  | addUid m o s i m' hm h ih =>
    obtain ⟨x, u, hx, hu, rfl⟩ := addUid_parts (hT hm) h
    exact ih.alike (uids_attr hx u).2 (fun q n _ => (uids_attr hx u).1 q n)

theorem keep_attr {c : ECls} {a : String} (q : Nat) (b : String) (h : q = o → c = .ingredientRun → b ≠ "_name" ∧ b ≠ "_labels") : attrAt (keepNames m o c a) q b = attrAt m q b := by
  unfold keepNames
  split
  · rename_i hc
    split
    · split
      · rw [attrAt_setField, if_neg (fun e => (h e.1 hc.1).2 e.2), attrAt_setField, if_neg (fun e => (h e.1 hc.1).1 e.2)]
      · rfl
    · rfl
  · rfl

/-- the assignments after which an attribute other than that assigned to, or a back reference, may have changed if they raise -/
def Hasty (c : ECls) (a : String) : Prop := (∃ back, backRef c = some (a, back)) ∨ (c = .ingredientRun ∧ a = "_spec")

/-- **C67 (refused)**: no attribute that can be set changes if an assignment raises, nor does a class or an id. If it is not to the other end of a two-way link, nor to the spec of an ingredient
run, then nothing changes. -/
theorem C67_refused_effect (hs : Sane env) (hm : Tried env same m) {e : PyErr} (h : assignS env same m o n v = (m', some e)) :
    m'.map skel = m.map skel ∧ (∀ q k, value m' q k = value m q k) ∧ ((∀ x a, m[o]? = some x → a ∈ eargs x.cls → a.name = n → ¬ Hasty x.cls a.attr) → m' = m) := by
  rcases refused_parts h with rfl | ⟨x, a, m1, hx, ha, hn, hu, _, rfl⟩
  · exact ⟨rfl, fun _ _ => rfl, fun _ => rfl⟩
  · have hc : clsAt m o = some x.cls := by simp [clsAt, hx]
    obtain ⟨w1, _, s1, f1⟩ := unlink_wellTyped (C67_refused_well_typed hs hm) hu
    obtain ⟨_, _, s2, f2⟩ := keep_wellTyped w1 (by rw [clsAt_skel s1]; exact hc) a.attr
    have hsk : (keepNames m1 o x.cls a.attr).map skel = m.map skel := s2.trans s1
    refine ⟨hsk, fun q k => ?_, fun hno => ?_⟩
    · unfold value
      cases hq : m[q]? with
      | none =>
        have : (keepNames m1 o x.cls a.attr)[q]? = none := by
          have hl : (keepNames m1 o x.cls a.attr).length = m.length := by simpa using congrArg List.length hsk
          rw [List.getElem?_eq_none_iff] at hq ⊢
          omega
        rw [this]
      | some y =>
        obtain ⟨z, hz, e⟩ := skel_at hsk hq
        have ec : z.cls = y.cls := congrArg Prod.fst e
        simp only [hz, ec]
        cases hb : (eargs y.cls).find? (fun a => decide (a.name = k)) with
        | none => rfl
        | some b =>
          simp only
          have hby := (find_name hb).1
          rw [keep_attr q b.attr (fun e1 e2 => ?_), f1 q b.attr (back_attr _ b hby)]
          subst e1
          rw [hx] at hq
          cases hq
          exact (eargs_attr _ _ hby).2.2 e2
    · have hn' := hno x a hx ha hn
      have h1 : m1 = m := by
        unfold unlink at hu
        split at hu
        · cases hu; rfl
        · rename_i there back hb
          split at hu
          · rename_i e
            exact absurd (.inl ⟨back, e ▸ hb⟩) hn'
          · cases hu; rfl
      rw [h1]
      unfold keepNames
      rw [if_neg (fun hc => hn' (.inr hc))]

/-- **C67 (refused)**: if the spec of an ingredient run is an object and a new one is refused, the run has stored the name and the labels of the present one. -/
theorem C67_refused_names {e : PyErr} {p : Nat} {nm ls : V} (hc : clsAt m o = some .ingredientRun) (hp : attrAt m o "_spec" = some (.ref p)) (hn : attrAt m p "_name" = some nm)
    (hl : attrAt m p "_labels" = some ls) (ho : (attrAt m o "_name").isSome ∧ (attrAt m o "_labels").isSome) (h : assignS env same m o "spec" v = (m', some e)) :
    attrAt m' o "_name" = some nm ∧ attrAt m' o "_labels" = some ls := by
  unfold clsAt at hc
  cases hx : m[o]? with
  | none => simp [hx] at hc
  | some x =>
    simp only [hx, Option.map_some, Option.some.injEq] at hc
    have ha : ((eargs .ingredientRun).find? fun a => decide (a.name = "spec")).map EArg.attr = some "_spec" := by decide +kernel
    unfold assignS at h
    simp only [hx, hc] at h
    cases hf : (eargs .ingredientRun).find? (fun a => decide (a.name = "spec")) with
    | none => simp [hf] at ha
    | some a =>
      simp only [hf, Option.map_some, Option.some.injEq] at ha
      simp only [hf, ha, setAttrS] at h
      have hu : unlink same m o .ingredientRun "_spec" = .ok m := by simp [unlink, backRef]
      rw [hu] at h
      simp only at h
      split at h
      · cases h
        simp only [keepNames, hp, hn, hl, and_self, if_true]
        obtain ⟨⟨n0, h1⟩, l0, h2⟩ := And.intro (Option.isSome_iff_exists.1 ho.1) (Option.isSome_iff_exists.1 ho.2)
        constructor
        · rw [attrAt_setField, if_neg (by simp), attrAt_setField, if_pos ⟨rfl, rfl⟩, h1]; rfl
        · rw [attrAt_setField, if_pos ⟨rfl, rfl⟩, attrAt_setField, if_neg (by simp), h2]; rfl
      · cases h

theorem removeFirst_cases (q : V → Bool) : ∀ l : List V, (removeFirst q l = .error .valueError ∧ ∀ z ∈ l, q z = false) ∨
    ∃ l1 y l2, l = l1 ++ y :: l2 ∧ (∀ z ∈ l1, q z = false) ∧ q y = true ∧ removeFirst q l = .ok (l1 ++ l2)
  | [] => .inl ⟨rfl, by simp⟩
  | v :: vs => by
    cases hv : q v with
    | true => exact .inr ⟨[], v, vs, rfl, by simp, hv, by simp [removeFirst, hv]⟩
    | false =>
      rcases removeFirst_cases q vs with ⟨h1, h2⟩ | ⟨l1, y, l2, rfl, h1, h2, h3⟩
      · exact .inl ⟨by simp [removeFirst, hv, h1], by simpa [hv] using h2⟩
      · exact .inr ⟨v :: l1, y, l2, rfl, by simpa [hv] using h1, h2, by simp [removeFirst, hv, h3]⟩

/-- **C67 (refused)**: if a value for the other end of a two-way link is refused, the present end has forgotten the object, or the first in its list that is equal to it; if there is none in the
list, it is ValueError and nothing has changed. -/
theorem C67_refused_forgets {e : PyErr} {c : ECls} {a : EArg} {back : String} {p : Nat} {u : V} (hc : clsAt m o = some c) (ha : a ∈ eargs c) (hn : a.name = n)
    (hb : backRef c = some (a.attr, back)) (hp : attrAt m o a.attr = some (.ref p)) (hs : attrAt m p back = some u) (hu : back = "_output_material" ∨ ∃ l, u = .list l)
    (h : assignS env same m o n v = (m', some e)) :
    (back = "_output_material" ∧ attrAt m' p back = some .none) ∨
    (∃ l, u = .list l ∧ (∀ z ∈ l, isSame same m o z = false) ∧ e = .valueError ∧ m' = m) ∨
    ∃ l1 y l2, u = .list (l1 ++ y :: l2) ∧ (∀ z ∈ l1, isSame same m o z = false) ∧ isSame same m o y = true ∧ attrAt m' p back = some (.list (l1 ++ l2)) := by
  unfold clsAt at hc
  cases hx : m[o]? with
  | none => simp [hx] at hc
  | some x =>
    simp only [hx, Option.map_some, Option.some.injEq] at hc
    unfold assignS at h
    simp only [hx, hc] at h
    cases hf : (eargs c).find? (fun a => decide (a.name = n)) with
    | none => exact absurd (List.find?_eq_none.1 hf a ha) (by simp [hn])
    | some a' =>
      obtain ⟨h1, h2⟩ := find_name hf
      obtain rfl : a = a' := name_inj ha h1 (hn.trans h2.symm)
      simp only [hf, setAttrS] at h
      have hkeep : ∀ m1 : Mem, attrAt (keepNames m1 o c a.attr) p back = attrAt m1 p back := by
        intro m1
        have := backRef_names hb
        exact keep_attr p back (fun _ _ => by constructor <;> (rintro rfl; simp [backNames] at this))
      by_cases hback : back = "_output_material"
      · left
        refine ⟨hback, ?_⟩
        have hun : unlink same m o c a.attr = .ok (setField m p back (fun _ => .none)) := by simp [unlink, hb, hp, hback]
        rw [hun] at h
        simp only at h
        split at h
        · cases h
          rw [hkeep, attrAt_setField, if_pos ⟨rfl, rfl⟩, hs]
          rfl
        · cases h
      · obtain ⟨l, rfl⟩ := hu.resolve_left hback
        right
        rcases removeFirst_cases (isSame same m o) l with ⟨g1, g2⟩ | ⟨l1, y, l2, rfl, g1, g2, g3⟩
        · left
          have hun : unlink same m o c a.attr = .error .valueError := by simp [unlink, hb, hp, hback, hs, g1]
          rw [hun] at h
          cases h
          exact ⟨l, rfl, g2, rfl, rfl⟩
        · right
          have hun : unlink same m o c a.attr = .ok (setField m p back (fun _ => .list (l1 ++ l2))) := by simp [unlink, hb, hp, hback, hs, g3]
          rw [hun] at h
          simp only at h
          split at h
          · cases h
            refine ⟨l1, y, l2, rfl, g1, g2, ?_⟩
            rw [hkeep, attrAt_setField, if_pos ⟨rfl, rfl⟩, hs]
            rfl
          · cases h

/-- **C67 (refused)**: `repr` returns (C66), also after assignments that raised. -/
theorem C67_refused_repr (hs : Sane env) (h : Tried env same m) {v : V} (hv : ∀ o, V.ref o ∈ v.subs → o < m.length)
    (hf : ∀ o x, m[o]? = some x → Nested m v o → FreePlain (asDict m x) ∧ ∀ e ∈ asDict m x, FreeInside e.2) :
    ∃ t, Repr.reprV m v = .ok t ∧ Repr.Shows m v t := by
  have hT := C67_refused_well_typed hs h
  have there : ∀ q o, Inside m q o → Nested m v q → o < m.length := by
    intro q o h
    induction h with
    | child h =>
      intro hq
      obtain ⟨x, hx, e, he, hp⟩ := h
      obtain ⟨y, hy, _⟩ := forward_refs hT hx (hf _ x hx hq).1 (hf _ x hx hq).2 he hp
      exact (List.getElem?_eq_some_iff.1 hy).1
    | deeper h _ ih => intro hq; exact ih (hq.step h)
  have hw : Repr.Whole m v := by
    refine ⟨?_, fun o x hx _ k hk => back_value (C67_refused_back_references hs h) hx k hk⟩
    rintro o (ho | ⟨q, hq, ho⟩)
    · exact hv o ho
    · exact there q o ho (.inl hq)
  obtain ⟨t, e⟩ := (Repr.C66_returns hw).2 (C57_no_cycle hT hf)
  exact ⟨t, e, Repr.C66_shows hw e⟩

end

/-- what is edited without care is tried -/
theorem tried_of_edited {env : Env} {same : Mem → Nat → Nat → Bool} {m : Mem} {care : Bool} (h : Edited env same care m) : Tried env same m := by
  induction h with
  | nil => exact .nil
  | call m c kwargs o m' _ hk hc _ ih => exact .call m c kwargs o m' ih hk hc
  | assign m o n v m' _ hv hk hn h _ ih => exact .assign m o n v m' ih hv hk hn (C67_refused_agrees.1.1 h)
  | change m o n l l' m' _ hl hv h ih => exact .change m o n l l' m' ih hl hv (C67_refused_agrees.1.1 h)
  | uids m o v m' _ h ih => exact .uids m o v m' ih h
  | addUid m o s i m' _ h ih => exact .addUid m o s i m' ih h

/-- C67: without care: a text is assigned to the process of an ingredient. That raises TypeError; the ingredient still has its process, but the process has forgotten the ingredient, and then even
`None` cannot be assigned. -/
theorem C67_refused_counterexample : ∃ m m', Edited plainEnv sameAll true m ∧ attrAt m 0 "_ingredients" = some (.list [.ref 1]) ∧
    assignS plainEnv sameAll m 1 "process" (.str "p") = (m', some .typeError) ∧ Tried plainEnv sameAll m' ∧ attrAt m' 1 "_process" = some (.ref 0) ∧
    attrAt m' 0 "_ingredients" = some (.list []) ∧ ¬ TwoWay m' ∧ assign plainEnv sameAll m' 1 "process" .none = .error .valueError := by
  have h : (match play plainEnv sameAll true [] [.call .processRun [("name", .str "p")], .call .ingredientRun [("process", .ref 0)]] with
    | .ok m => (match assignS plainEnv sameAll m 1 "process" (.str "p") with
      | (m', some e) => decide (e = .typeError ∧ attrAt m 0 "_ingredients" = some (.list [.ref 1]) ∧ attrAt m' 1 "_process" = some (.ref 0) ∧ attrAt m' 0 "_ingredients" = some (.list []) ∧
          clsAt m' 1 = some .ingredientRun ∧ assign plainEnv sameAll m' 1 "process" .none = .error .valueError)
      | _ => false)
    | .error _ => false) = true := by decide +kernel
  split at h
  · rename_i m hm
    split at h
    · rename_i m' e he
      obtain ⟨rfl, h1, h2, h3, h4, h5⟩ := of_decide_eq_true h
      have hE : Edited plainEnv sameAll true m := play_edited _ .nil hm
      refine ⟨m, m', hE, h1, he, .refused _ _ _ _ _ _ (tried_of_edited hE) he, h2, h3, fun ht => ?_, h5⟩
      have hp : Points m' "_ingredients" 1 0 := points_attr.2 ⟨.ingredientRun, "_process", h4, by decide, h2⟩
      generalize hv : V.list [] = v at h3
      cases ht 0 "_ingredients" v (by decide) h3 with
      | many as hne hnd hpt =>
        have := (hpt 1).2 hp
        cases as with
        | nil => cases this
        | cons a as => simp at hv
      | none e _ => cases hv
      | one a e _ _ => cases hv
    · cases h
  · cases h

/-- the case of `C67_refused_effect` in which nothing changes -/
example : (assignS plainEnv sameAll done 7 "file_links" (.int 1)).2.isSome ∧ (assignS plainEnv sameAll done 7 "file_links" (.int 1)).1 = done ∧ Tried plainEnv sameAll done :=
  ⟨by decide +kernel, by decide +kernel, tried_of_edited done_edited⟩

end Verif.Assign
