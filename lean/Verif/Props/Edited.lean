import Verif.Props.InplaceEx
import Verif.Props.InplaceLinks
import Verif.Props.CopyEqual
import Verif.Props.History
import Verif.Props.Repr
import Verif.Model.Assign
/-!
# C67: entities that are made by constructors and then changed by assignments
-/

set_option linter.unusedSimpArgs false
set_option linter.unusedVariables false
set_option linter.unusedSectionVars false

namespace Verif.Assign
open Verif.Py Verif.Value Verif.Schema Verif.Json Verif.Substitute Verif.Inplace
open Verif.Equal (dictIn uidsIn eqV equals Result)

/-! ## Histories -/

/-- no process has two outputs -/
def OneOutput (m : Mem) : Prop := ∀ a c b, Points m "_output_material" a b → Points m "_output_material" c b → c = a

/-- nothing else that points to where `o` points is equal to `o` -/
def Alone (same : Mem → Nat → Nat → Bool) (m : Mem) (o : Nat) : Prop := ∀ q k p, q ≠ o → Points m k q p → Points m k o p → same m q o = false

/-- The memories that come from constructor calls, assignments to attributes (but not to the bounds of attribute templates), changes to lists, and changes to ids.
`care` demands that no process ever has two outputs, and that nothing is moved from where something equal is. -/
inductive Edited (env : Env) (same : Mem → Nat → Nat → Bool) (care : Bool) : Mem → Prop
  | nil : Edited env same care []
  | call (m : Mem) (c : ECls) (kwargs : List (String × V)) (o : Nat) (m' : Mem) : Edited env same care m →
      (∀ e ∈ kwargs, Made env m e.2 ∧ strKeys e.2) → constructE env m c kwargs = .ok (o, m') → (care = true → OneOutput m') → Edited env same care m'
  | assign (m : Mem) (o : Nat) (n : String) (v : V) (m' : Mem) : Edited env same care m → Made env m v → strKeys v → n ≠ "bounds" →
      assign env same m o n v = .ok m' → (care = true → OneOutput m' ∧ (n = "process" ∨ n = "material" → Alone same m o)) → Edited env same care m'
  | change (m : Mem) (o : Nat) (n : String) (l l' : List V) (m' : Mem) : Edited env same care m → value m o n = some (.list l) →
      (∀ v ∈ l', v ∈ l ∨ Made env m v) → assign env same m o n (.list l') = .ok m' → Edited env same care m'
  | uids (m : Mem) (o : Nat) (v : V) (m' : Mem) : Edited env same care m → assignUids env m o v = .ok m' → Edited env same care m'
  | addUid (m : Mem) (o : Nat) (s i : String) (m' : Mem) : Edited env same care m → addUid env m o s i = .ok m' → Edited env same care m'

/-! ## Every attribute holds what its setter stores -/

section
variable {env : Env} {same : Mem → Nat → Nat → Bool} {m : Mem} {o : Nat}

/-- one attribute is set to something that fits -/
theorem setFwd_wellTyped (hW : WellTyped env m) {c : ECls} (hc : clsAt m o = some c) {a : String} (ha : a ≠ "_bounds") {w : V} (hf : Fits env m c a w) :
    WellTyped env (setField m o a (fun _ => w)) := by
  have hg : Grows m (setField m o a (fun _ => w)) := setField_grows m o ha _
  refine typed_of_fits (fun p x hx => ?_)
  obtain ⟨y, hy, hsk⟩ := skel_at (setField_skel m o a (fun _ => w)).symm hx
  have e1 : y.cls = x.cls := congrArg Prod.fst hsk
  have e2 : y.fields.map Prod.fst = x.fields.map Prod.fst := congrArg (fun s => s.2.2) hsk
  have e3 : y.uids = x.uids := congrArg (fun s => s.2.1) hsk
  obtain ⟨vals, own, hs, _⟩ := hW p y hy
  refine ⟨by rw [← e2, ← e1]; exact typed_names hW hy, by rw [← e3]; exact hs.uids, fun b v hb hv => ?_⟩
  rw [attrAt_setField] at hv
  split at hv
  · rename_i e
    obtain ⟨rfl, rfl⟩ := e
    have hcx : x.cls = c := by rw [← e1]; simpa [clsAt, hy] using hc
    cases h : attrAt m p b with
    | none => simp [h] at hv
    | some u =>
      simp only [h, Option.map_some, Option.some.injEq] at hv
      rw [← hv, hcx]
      exact hf.grows hg
  · rw [← e1]
    exact (fits_of_typed hW (by simp [clsAt, hy]) hv hb).grows hg

theorem find_name {c : ECls} {n : String} {a : EArg} (h : (eargs c).find? (fun a => decide (a.name = n)) = some a) : a ∈ eargs c ∧ a.name = n :=
  ⟨List.mem_of_find?_eq_some h, by simpa using List.find?_some h⟩

theorem bounds_name (c : ECls) : ∀ a ∈ eargs c, a.attr = "_bounds" → a.name = "bounds" := by cases c <;> decide +kernel

theorem unlink_steps {c : ECls} {a : String} {m1 : Mem} (h : unlink same m o c a = .ok m1) :
    m1 = m ∨ ∃ p back f, back ∈ backNames ∧ m1 = setField m p back f := by
  unfold unlink at h
  split at h
  · cases h; exact .inl rfl
  · rename_i there back hb
    split at h
    · split at h
      · rename_i p hp
        split at h
        · cases h; exact .inr ⟨p, back, _, backRef_names hb, rfl⟩
        · split at h
          · split at h
            · cases h
            · cases h; exact .inr ⟨p, back, _, backRef_names hb, rfl⟩
          · cases h
      · cases h; exact .inl rfl
    · cases h; exact .inl rfl

theorem unlink_wellTyped (hW : WellTyped env m) {c : ECls} {a : String} {m1 : Mem} (h : unlink same m o c a = .ok m1) :
    WellTyped env m1 ∧ Grows m m1 ∧ m1.map skel = m.map skel ∧ ∀ q b, b ∉ backNames → attrAt m1 q b = attrAt m q b := by
  rcases unlink_steps h with rfl | ⟨p, back, f, hb, rfl⟩
  · exact ⟨hW, Grows.refl _, rfl, fun _ _ _ => rfl⟩
  · refine ⟨setField_wellTyped hW p hb f, setField_grows m p (by intro e; subst e; simp [backNames] at hb) f, setField_skel _ _ _ _, fun q b hbn => ?_⟩
    rw [attrAt_setField, if_neg (fun e => hbn (by rw [e.2]; exact hb))]

theorem keep_wellTyped (hW : WellTyped env m) {c : ECls} (hc : clsAt m o = some c) (a : String) :
    WellTyped env (keepNames m o c a) ∧ Grows m (keepNames m o c a) ∧ (keepNames m o c a).map skel = m.map skel ∧
      ∀ q b, b ≠ "_name" ∧ b ≠ "_labels" → attrAt (keepNames m o c a) q b = attrAt m q b := by
  unfold keepNames
  split
  · rename_i hs
    obtain ⟨rfl, rfl⟩ := hs
    split
    · rename_i p hp
      split
      · rename_i n ls hn hl
        have hcp : clsAt m p = some .ingredientSpec := by
          have hf := (fits_of_typed hW hc hp (by decide)).conv
          have hk : kindOf .ingredientRun "_spec" = .target [.ingredientSpec] := by decide +kernel
          rw [hk] at hf
          simp only [conv, convTarget, isCls, isLink] at hf
          unfold clsAt
          cases hx : m[p]? with
          | none => simp [hx] at hf
          | some x =>
            simp [hx] at hf
            simp [hf]
        have hnl := spec_name hW hcp hn
        have hll := spec_labels hW hcp hl
        have hk1 : kindOf .ingredientRun "_name" = .raw := by decide +kernel
        have hk2 : kindOf .ingredientRun "_labels" = .raw := by decide +kernel
        have f1 : Fits env m .ingredientRun "_name" n := by
          have := fits_of_typed hW hcp hn (by decide)
          exact ⟨by rw [hk1]; rfl, this.ok, fun _ _ => hnl, fun _ e => absurd e (by decide)⟩
        have f2 : Fits env m .ingredientRun "_labels" ls := by
          have := fits_of_typed hW hcp hl (by decide)
          exact ⟨by rw [hk2]; rfl, this.ok, fun _ e => absurd e (by decide), fun _ _ => hll⟩
        have w1 := setFwd_wellTyped hW hc (by decide) f1
        have g1 : Grows m (setField m o "_name" (fun _ => n)) := setField_grows _ _ (by decide) _
        have hc1 : clsAt (setField m o "_name" (fun _ => n)) o = some .ingredientRun := by rw [clsAt_skel (setField_skel _ _ _ _)]; exact hc
        refine ⟨setFwd_wellTyped w1 hc1 (by decide) (f2.grows g1), g1.trans (setField_grows _ _ (by decide) _), by rw [setField_skel, setField_skel], fun q b hb => ?_⟩
        rw [attrAt_setField, if_neg (fun e => hb.2 e.2), attrAt_setField, if_neg (fun e => hb.1 e.2)]
      · exact ⟨hW, Grows.refl _, rfl, fun _ _ _ => rfl⟩
    · exact ⟨hW, Grows.refl _, rfl, fun _ _ _ => rfl⟩
  · exact ⟨hW, Grows.refl _, rfl, fun _ _ _ => rfl⟩

theorem tell_wellTyped (hW : WellTyped env m) (c : ECls) (a : String) (w : V) : WellTyped env (tell m o c a w) := by
  unfold tell
  split
  · exact hW
  · rename_i there back hb
    split
    · split
      · exact setField_wellTyped hW _ (backRef_names hb) _
      · exact hW
    · exact hW

/-- an assignment, taken apart -/
theorem assign_parts {n : String} {v : V} {m' : Mem} (h : assign env same m o n v = .ok m') : ∃ x a w m1, m[o]? = some x ∧ a ∈ eargs x.cls ∧ a.name = n ∧
    conv env m a.kind v = .ok w ∧ unlink same m o x.cls a.attr = .ok m1 ∧
    m' = tell (setField (keepNames m1 o x.cls a.attr) o a.attr (fun _ => w)) o x.cls a.attr w := by
  unfold assign at h
  split at h
  · cases h
  · rename_i x hx
    split at h
    · cases h
    · rename_i a ha
      obtain ⟨h1, h2⟩ := find_name ha
      unfold setAttr at h
      rw [kindOf_arg h1] at h
      split at h
      · cases h
      · rename_i w hw
        split at h
        · cases h
        · rename_i m1 hm1
          cases h
          exact ⟨x, a, w, m1, hx, h1, h2, hw, hm1, rfl⟩

theorem fits_of_conv (hs : Sane env) {c : ECls} {a : EArg} (ha : a ∈ eargs c) {v w : V} (hk : strKeys v) (ho : okV env m v) (h : conv env m a.kind v = .ok w) :
    Fits env m c a.attr w := by
  have hr := eargs_kinds c a ha
  refine ⟨by rw [kindOf_arg ha]; exact conv_idem env hs m _ hr.2 hr.1 _ _ h, conv_ok env m _ _ _ hk ho h, fun e1 e2 => ?_, fun e1 e2 => ?_⟩
  · exact absurd e2 ((eargs_attr _ _ ha).2.2 e1).1
  · exact absurd e2 ((eargs_attr _ _ ha).2.2 e1).2

theorem assign_wellTyped (hs : Sane env) (hW : WellTyped env m) {n : String} (hn : n ≠ "bounds") {v : V} (hk : strKeys v) (ho : okV env m v) {m' : Mem}
    (h : assign env same m o n v = .ok m') : WellTyped env m' := by
  obtain ⟨x, a, w, m1, hx, ha, rfl, hw, hm1, rfl⟩ := assign_parts h
  have hc : clsAt m o = some x.cls := by simp [clsAt, hx]
  obtain ⟨w1, g1, s1, _⟩ := unlink_wellTyped hW hm1
  have hc1 : clsAt m1 o = some x.cls := by rw [clsAt_skel s1]; exact hc
  obtain ⟨w2, g2, s2, _⟩ := keep_wellTyped w1 hc1 a.attr
  have hc2 : clsAt (keepNames m1 o x.cls a.attr) o = some x.cls := by rw [clsAt_skel s2]; exact hc1
  exact tell_wellTyped (setFwd_wellTyped w2 hc2 (fun e => hn (bounds_name _ _ ha e)) ((fits_of_conv hs ha hk ho hw).grows (g1.trans g2))) _ _ _

theorem value_attr {n : String} {v : V} (h : value m o n = some v) : ∃ x a, m[o]? = some x ∧ a ∈ eargs x.cls ∧ a.name = n ∧ attrAt m o a.attr = some v := by
  unfold value at h
  split at h
  · cases h
  · rename_i x hx
    split at h
    · cases h
    · rename_i a ha
      exact ⟨x, a, hx, (find_name ha).1, (find_name ha).2, h⟩

theorem value_ok (hW : WellTyped env m) {n : String} {v : V} (h : value m o n = some v) : okV env m v := by
  obtain ⟨x, a, hx, ha, _, hv⟩ := value_attr h
  exact (fits_of_typed hW (c := x.cls) (by simp [clsAt, hx]) hv (back_attr _ a ha)).ok

theorem changed_ok (hs : Sane env) (hW : WellTyped env m) {n : String} {l l' : List V} (h : value m o n = some (.list l)) (hl : ∀ v ∈ l', v ∈ l ∨ Made env m v) :
    okV env m (.list l') := by
  have := value_ok hW h
  simp only [okV] at this ⊢
  rw [okVs_iff] at this ⊢
  intro v hv
  rcases hl v hv with hv | hv
  · exact this v hv
  · exact hv.okV hs

/-- the bounds of a template are no list -/
theorem changed_bounds (hW : WellTyped env m) {n : String} {l : List V} (h : value m o n = some (.list l)) : n ≠ "bounds" := by
  rintro rfl
  obtain ⟨x, a, hx, ha, e, hv⟩ := value_attr h
  have hb : ∀ c : ECls, ∀ a ∈ eargs c, a.name = "bounds" → a.attr = "_bounds" := by intro c; cases c <;> decide +kernel
  have hf := (fits_of_typed hW (c := x.cls) (by simp [clsAt, hx]) hv (back_attr _ a ha)).conv
  rw [kindOf_arg ha, kind_bounds _ a ha (hb _ a ha e)] at hf
  simp [conv, convObj, isTyp] at hf

theorem uids_wellTyped (hW : WellTyped env m) {x : EObj} (hx : m[o]? = some x) {u : List (String × String)} (hu : clash env.lower (u.map Prod.fst) = false) :
    WellTyped env (m.set o { x with uids := u }) := by
  have hat : ∀ (p : Nat) (y : EObj), (m.set o { x with uids := u })[p]? = some y → ∃ z : EObj, m[p]? = some z ∧ y.cls = z.cls ∧ y.fields = z.fields ∧ (y.uids = z.uids ∨ y.uids = u) := by
    intro p y hy
    rw [List.getElem?_set] at hy
    split at hy
    · rename_i e
      subst e
      split at hy
      · cases hy; exact ⟨x, hx, rfl, rfl, .inr rfl⟩
      · cases hy
    · exact ⟨y, hy, rfl, rfl, .inl rfl⟩
  have hg : Grows m (m.set o { x with uids := u }) := by
    intro p y hy
    by_cases e : o = p
    · subst e
      rw [hx] at hy
      cases hy
      refine ⟨{ x with uids := u }, ?_, rfl, fun _ h => h⟩
      rw [List.getElem?_set]
      simp [(List.getElem?_eq_some_iff.1 hx).1]
    · exact ⟨y, by rw [List.getElem?_set, if_neg e]; exact hy, rfl, fun _ h => h⟩
  intro p y hy
  obtain ⟨z, hz, e1, e2, e3⟩ := hat p y hy
  obtain ⟨vals, own, hs, hown⟩ := hW p z hz
  have hs' := hs.grows hg
  refine ⟨vals, own, ⟨by rw [e1]; exact hs'.len, by rw [e1, e2]; exact hs'.fields, by rw [e1]; exact hs'.own, by rw [e1]; exact hs'.conv, hs'.ok, ?_⟩, by rw [e1]; exact hown⟩
  rcases e3 with e3 | e3
  · rw [e3]; exact hs.uids
  · rw [e3]; exact hu

/-- the ids are set -/
theorem uids_parts {v : V} {m' : Mem} (h : assignUids env m o v = .ok m') : ∃ x u, m[o]? = some x ∧ clash env.lower (u.map Prod.fst) = false ∧
    m' = m.set o { x with uids := u } := by
  unfold assignUids at h
  split at h
  · cases h
  · rename_i x hx
    split at h
    · cases h
    · rename_i u hu
      cases h
      refine ⟨x, u, hx, ?_, rfl⟩
      unfold convUids at hu
      split at hu
      · cases hu; rfl
      · split at hu
        · split at hu
          · cases hu
          · rename_i hc; cases hu; simpa using hc
        · cases hu
      · cases hu

theorem set_fst (d : Dict String String) (s i : String) : (Dict.set d s i).map Prod.fst = if s ∈ d.map Prod.fst then d.map Prod.fst else d.map Prod.fst ++ [s] := by
  induction d with
  | nil => simp [Dict.set]
  | cons e d ih =>
    obtain ⟨k, v⟩ := e
    simp only [Dict.set]
    by_cases h : k = s
    · subst h; simp
    · have hs : s ≠ k := fun e => h e.symm
      simp only [h, if_false, List.map_cons, ih, List.mem_cons, hs, false_or]
      split <;> simp

theorem addUid_parts (hW : WellTyped env m) {s i : String} {m' : Mem} (h : addUid env m o s i = .ok m') : ∃ x u, m[o]? = some x ∧
    clash env.lower (u.map Prod.fst) = false ∧ m' = m.set o { x with uids := u } := by
  unfold addUid at h
  split at h
  · cases h
  · rename_i x hx
    split at h
    · cases h
    · rename_i hc
      cases h
      refine ⟨x, _, hx, ?_, rfl⟩
      obtain ⟨_, _, hs, _⟩ := hW o x hx
      have hu := hs.uids
      rw [set_fst]
      split
      · exact hu
      · rename_i hns
        rw [clash_iff] at hu ⊢
        rw [List.map_append, List.nodup_append]
        refine ⟨hu, by simp, ?_⟩
        intro a ha b hb e
        obtain ⟨t, ht, rfl⟩ := List.mem_map.1 ha
        obtain ⟨p, hp, rfl⟩ := List.mem_map.1 ht
        simp only [List.map_cons, List.map_nil, List.mem_singleton] at hb
        apply hc
        rw [List.any_eq_true]
        refine ⟨p, hp, ?_⟩
        simp only [Bool.and_eq_true, decide_eq_true_eq]
        exact ⟨e.trans hb, fun e' => hns (e' ▸ ht)⟩

/-- C67: every attribute holds what its setter stores, at any time -/
theorem C67_well_typed (hs : Sane env) {care : Bool} (h : Edited env same care m) : WellTyped env m := by
  induction h with
  | nil => intro o x hx; simp at hx
  | call m c kwargs o m' _ hk hc _ ih => exact (constructE_wellTyped hs ih (fun e he => ⟨(hk e he).1.okV hs, (hk e he).2⟩) hc).1
  | assign m o n v m' _ hv hk hn h _ ih => exact assign_wellTyped hs ih hn hk (hv.okV hs) h
  | change m o n l l' m' _ hl hv h ih => exact assign_wellTyped hs ih (changed_bounds ih hl) (by simp [strKeys]) (changed_ok hs ih hl hv) h
  | uids m o v m' _ h ih =>
    obtain ⟨x, u, hx, hu, rfl⟩ := uids_parts h
    exact uids_wellTyped ih hx hu
  | addUid m o s i m' _ h ih =>
    obtain ⟨x, u, hx, hu, rfl⟩ := addUid_parts ih h
    exact uids_wellTyped ih hx hu

/-! ## Two-way links -/

/-- the attribute `n` names exactly those with `P` -/
inductive Tells (P : Nat → Prop) (n : String) : V → Prop where
  | none : n = "_output_material" → (∀ a, ¬ P a) → Tells P n .none
  | one (a : Nat) : n = "_output_material" → P a → (∀ c, P c → c = a) → Tells P n (.ref a)
  | many (as : List Nat) : n ≠ "_output_material" → as.Nodup → (∀ a, a ∈ as ↔ P a) → Tells P n (.list (as.map .ref))

theorem Tells.congr {P Q : Nat → Prop} {n : String} {v : V} (h : Tells P n v) (e : ∀ a, Q a ↔ P a) : Tells Q n v := by
  have : Q = P := funext (fun a => propext (e a))
  rw [this]; exact h

theorem lists_iff {n : String} {b : Nat} {v : V} : Lists m n b v ↔ Tells (fun a => Points m n a b) n v := by
  constructor
  · intro h
    cases h with
    | none h1 h2 => exact .none h1 h2
    | one a h1 h2 h3 => exact .one a h1 h2 h3
    | many as h1 h2 h3 => exact .many as h1 h2 h3
  · intro h
    cases h with
    | none h1 h2 => exact .none h1 h2
    | one a h1 h2 h3 => exact .one a h1 h2 h3
    | many as h1 h2 h3 => exact .many as h1 h2 h3

/-- the new end of a two-way link -/
def told (m : Mem) (o : Nat) (back : String) (w : V) : Mem := match w with
  | .ref p => setField m p back (if back = "_output_material" then fun _ => .ref o else appendTo (.ref o))
  | _ => m

theorem told_skel (o : Nat) (back : String) (w : V) : (told m o back w).map skel = m.map skel := by
  unfold told
  split
  · rw [setField_skel]
  · rfl

theorem told_attr (o : Nat) (back : String) (w : V) (q : Nat) (b : String) (hb : b ≠ back) : attrAt (told m o back w) q b = attrAt m q b := by
  unfold told
  split
  · rw [attrAt_setField, if_neg (fun e => hb e.2)]
  · rfl

/-- If everything is told but that `o` points to `w`, and then that is told, then all is well. -/
theorem told_twoWay {back : String} {w : V} (h1 : ∀ b n v, n ∈ backNames → attrAt m b n = some v → Tells (fun q => Points (told m o back w) n q b ∧ ¬ (q = o ∧ n = back)) n v)
    (hp : ∀ b, Points (told m o back w) back o b ↔ w = .ref b) (hone : OneOutput (told m o back w)) : TwoWay (told m o back w) := by
  intro b n v hn hv
  rw [lists_iff]
  have keep : ∀ v, attrAt m b n = some v → ¬ (w = .ref b ∧ n = back) → Tells (fun a => Points (told m o back w) n a b) n v := by
    intro v hv hne
    refine (h1 b n v hn hv).congr (fun q => ⟨fun h => ⟨h, ?_⟩, fun h => h.1⟩)
    rintro ⟨rfl, rfl⟩
    exact hne ⟨(hp b).1 h, rfl⟩
  by_cases hw : ∃ p, w = .ref p
  · obtain ⟨p, rfl⟩ := hw
    have hv2 := hv
    simp only [told] at hv
    rw [attrAt_setField] at hv
    split at hv
    · rename_i e
      obtain ⟨rfl, rfl⟩ := e
      cases h : attrAt m b n with
      | none => simp [h] at hv
      | some u =>
        simp only [h, Option.map_some, Option.some.injEq] at hv
        have hu := h1 b n u hn h
        have hpo := (hp b).2 rfl
        split at hv
        · rename_i e
          rw [← hv]
          refine .one o e hpo (fun c hc => ?_)
          rw [e] at hc hpo hone
          exact hone o c b hpo hc
        · rename_i e
          cases hu with
          | none e' _ => exact absurd e' e
          | one _ e' _ _ => exact absurd e' e
          | many as _ hnd hiff =>
            have ho : o ∉ as := fun ho => ((hiff o).1 ho).2 ⟨rfl, rfl⟩
            have : v = .list ((as ++ [o]).map .ref) := by rw [← hv]; simp [appendTo]
            rw [this]
            refine .many _ e ?_ (fun a => ?_)
            · rw [List.nodup_append]
              refine ⟨hnd, by simp, ?_⟩
              intro a ha b' hb' e'
              simp only [List.mem_singleton] at hb'
              exact ho (by rw [← hb', ← e']; exact ha)
            · rw [List.mem_append, hiff a, List.mem_singleton]
              constructor
              · rintro (h | rfl)
                · exact h.1
                · exact hpo
              · intro h
                by_cases e' : a = o
                · exact .inr e'
                · exact .inl ⟨h, fun e => e' e.1⟩
    · rename_i e
      exact keep v hv (fun e' => e ⟨(V.ref.inj e'.1).symm, e'.2⟩)
  · have : told m o back w = m := by
      unfold told
      split
      · exact absurd ⟨_, rfl⟩ hw
      · rfl
    refine keep v ?_ (fun e => hw ⟨b, e.1⟩)
    rw [this] at hv
    exact hv

theorem tell_told {c : ECls} {a back : String} (hb : backRef c = some (a, back)) (w : V) : tell m o c a w = told m o back w := by
  unfold tell told
  rw [hb]
  simp only [if_true]
  cases w <;> rfl

theorem points_there {c : ECls} {there back : String} (hc : clsAt m o = some c) (hb : backRef c = some (there, back)) (b : Nat) :
    Points m back o b ↔ attrAt m o there = some (.ref b) := by
  rw [points_attr]
  constructor
  · rintro ⟨c', there', e1, e2, e3⟩
    rw [hc] at e1
    cases e1
    rw [hb] at e2
    cases e2
    exact e3
  · intro h
    exact ⟨c, there, hc, hb, h⟩

theorem typed_points (hW : WellTyped env m) {n : String} {a b : Nat} (h : Points m n a b) : b < m.length := by
  obtain ⟨c, there, e1, e2, e3⟩ := points_attr.1 h
  cases hx : m[a]? with
  | none => simp [clsAt, hx] at e1
  | some x =>
    obtain ⟨vals, own, hs, _⟩ := hW a x hx
    have hcx : x.cls = c := by simpa [clsAt, hx] using e1
    exact shape_target hs (by rw [hcx]; exact e2) (by simpa [attrAt, hx] using e3)

/-- a constructor call -/
theorem call_twoWay (hs : Sane env) (hW : WellTyped env m) (h2 : TwoWay m) {c : ECls} {kwargs : List (String × V)}
    (hk : ∀ e ∈ kwargs, okV env m e.2 ∧ strKeys e.2) {m' : Mem} (hc : constructE env m c kwargs = .ok (o, m')) (hone : OneOutput m') : TwoWay m' := by
  unfold constructE at hc
  split at hc
  · cases hc
  · rename_i x hx
    cases hc
    obtain ⟨h1, vals, hsh⟩ := newEntity_shape hs hk hx
    have hcls : clsAt (m ++ [x]) m.length = some x.cls := by simp [clsAt]
    have hcls' : ∀ q, q < m.length → clsAt (m ++ [x]) q = clsAt m q := by
      intro q hq; unfold clsAt; rw [List.getElem?_append_left hq]
    have hat : ∀ q b, q < m.length → attrAt (m ++ [x]) q b = attrAt m q b := by
      intro q b hq; unfold attrAt; rw [List.getElem?_append_left hq]
    have hlt : ∀ q c, clsAt (m ++ [x]) q = some c → q < m.length ∨ q = m.length := by
      intro q c h
      apply Classical.byContradiction
      intro hn
      have hn : m.length + 1 ≤ q := by omega
      rw [clsAt, List.getElem?_eq_none (by simpa using hn)] at h
      cases h
    -- who points at whom, before it is told
    have hpts : ∀ n q b, q ≠ m.length → (Points (m ++ [x]) n q b ↔ Points m n q b) := by
      intro n q b hq
      rw [points_attr, points_attr]
      constructor
      · rintro ⟨c', there, e1, e2, e3⟩
        have hq' := (hlt q c' e1).resolve_right hq
        exact ⟨c', there, by rw [← hcls' q hq']; exact e1, e2, by rw [← hat q there hq']; exact e3⟩
      · rintro ⟨c', there, e1, e2, e3⟩
        have hq' : q < m.length := by
          apply Classical.byContradiction
          intro hn
          rw [clsAt, List.getElem?_eq_none (by omega)] at e1
          cases e1
        exact ⟨c', there, by rw [hcls' q hq']; exact e1, e2, by rw [hat q there hq']; exact e3⟩
    have htarget : ∀ n b, Points (m ++ [x]) n m.length b → b < m.length := by
      intro n b h
      obtain ⟨c', there, e1, e2, e3⟩ := points_attr.1 h
      rw [hcls] at e1
      cases e1
      exact shape_target hsh e2 (by simpa [attrAt] using e3)
    -- what is told in `m ++ [x]`
    have hbase : ∀ b n v, n ∈ backNames → attrAt (m ++ [x]) b n = some v → Tells (fun q => Points (m ++ [x]) n q b ∧ q ≠ m.length) n v := by
      intro b n v hn hv
      have hb : b < m.length ∨ b = m.length := by
        apply Classical.byContradiction
        intro hno
        have hno : m.length + 1 ≤ b := by omega
        rw [attrAt, List.getElem?_eq_none (by simpa using hno)] at hv
        cases hv
      rcases hb with hb | rfl
      · rw [hat b n hb] at hv
        refine (lists_iff.1 (h2 b n v hn hv)).congr (fun q => ?_)
        constructor
        · rintro ⟨h, hq⟩
          exact (hpts n q b hq).1 h
        · intro h
          have hq : q ≠ m.length := by
            intro e
            have := points_lt h
            omega
          exact ⟨(hpts n q b hq).2 h, hq⟩
      · have hno : ∀ q, ¬ (Points (m ++ [x]) n q m.length ∧ q ≠ m.length) := by
          rintro q ⟨h, hq⟩
          have := typed_points hW ((hpts n q _ hq).1 h)
          omega
        have hv' : Dict.get? (ownFields x.cls) n = some v := by
          have : Dict.get? x.fields n = some v := by simpa [attrAt] using hv
          rw [hsh.fields, get?_append_right _ _ _ (backNames_args x.cls n hn), ← h1] at this
          exact this
        have key : ∀ c : ECls, ∀ n ∈ backNames, ((Dict.get? (ownFields c) n).all fun v => if n = "_output_material" then decide (v = .none) else decide (v = .list [])) = true := by
          intro c; cases c <;> decide +kernel
        have := key x.cls n hn
        rw [hv'] at this
        simp only [Option.all_some] at this
        split at this
        · rename_i e
          rw [of_decide_eq_true this]
          exact .none e hno
        · rename_i e
          rw [of_decide_eq_true this]
          exact .many [] e (by simp) (fun a => ⟨fun h => by simp at h, fun h => absurd h (hno a)⟩)
    cases hb : backRef x.cls with
    | none =>
      have hlb : linkBack (m ++ [x]) m.length x = m ++ [x] := by unfold linkBack; rw [hb]
      rw [hlb] at hone ⊢
      intro b n v hn hv
      refine lists_iff.2 ((hbase b n v hn hv).congr (fun q => ⟨fun h => ⟨h, ?_⟩, fun h => h.1⟩))
      rintro rfl
      obtain ⟨c', there, e1, e2, e3⟩ := points_attr.1 h
      rw [hcls] at e1
      cases e1
      rw [hb] at e2
      cases e2
    | some e =>
      obtain ⟨there, back⟩ := e
      obtain ⟨a, ha, ea, _⟩ := backRef_arg _ _ _ hb
      obtain ⟨w, _, hw, _⟩ := get?_args (c := x.cls) (own := ownFields c) (own' := []) hsh.len ⟨a, ha, ea⟩
      rw [← hsh.fields] at hw
      have htold : linkBack (m ++ [x]) m.length x = told (m ++ [x]) m.length back w := by
        unfold linkBack told
        rw [hb]
        simp only
        rw [hw]
        cases w <;> rfl
      rw [htold] at hone ⊢
      have hbn := backRef_names hb
      have hps : ∀ n q b, Points (told (m ++ [x]) m.length back w) n q b ↔ Points (m ++ [x]) n q b := by
        intro n q b
        rw [points_attr, points_attr]
        constructor
        · rintro ⟨c', t', e1, e2, e3⟩
          rw [clsAt_skel (told_skel _ _ _)] at e1
          rw [told_attr _ _ _ _ _ (fun e => backRef_there e2 (by rw [e]; exact hbn))] at e3
          exact ⟨c', t', e1, e2, e3⟩
        · rintro ⟨c', t', e1, e2, e3⟩
          exact ⟨c', t', by rw [clsAt_skel (told_skel _ _ _)]; exact e1, e2, by rw [told_attr _ _ _ _ _ (fun e => backRef_there e2 (by rw [e]; exact hbn))]; exact e3⟩
      refine told_twoWay (fun b n v hn hv => (hbase b n v hn hv).congr (fun q => ?_)) (fun b => ?_) hone
      · rw [hps]
        constructor
        · rintro ⟨h, hno⟩
          refine ⟨h, ?_⟩
          rintro rfl
          obtain ⟨c', t', e1, e2, e3⟩ := points_attr.1 h
          rw [hcls] at e1
          cases e1
          rw [hb] at e2
          cases e2
          exact hno ⟨rfl, rfl⟩
        · rintro ⟨h, hno⟩
          exact ⟨h, fun e => hno e.1⟩
      · rw [hps, points_there hcls hb]
        simp [attrAt, hw]

/-- an assignment -/
theorem assign_twoWay (hs : Sane env) (hW : WellTyped env m) (h2 : TwoWay m) {n : String} {v : V} {m' : Mem} (h : assign env same m o n v = .ok m')
    (hone : OneOutput m') (hal : n = "process" ∨ n = "material" → Alone same m o) : TwoWay m' := by
  obtain ⟨x, a, w, m1, hx, ha, rfl, hw, hm1, rfl⟩ := assign_parts h
  have hc : clsAt m o = some x.cls := by simp [clsAt, hx]
  obtain ⟨w1, g1, s1, f1⟩ := unlink_wellTyped hW hm1
  have hc1 : clsAt m1 o = some x.cls := by rw [clsAt_skel s1]; exact hc
  obtain ⟨w2, g2, s2, f2⟩ := keep_wellTyped w1 hc1 a.attr
  have hab := back_attr _ a ha
  have hnames : ∀ n ∈ backNames, n ≠ "_name" ∧ n ≠ "_labels" := by decide
  have htnames : ∀ c there back, backRef c = some (there, back) → there ≠ "_name" ∧ there ≠ "_labels" := by
    intro c there back h
    cases c <;> simp [backRef] at h <;> simp [h.1.symm]
  by_cases hb : ∃ back, backRef x.cls = some (a.attr, back)
  · obtain ⟨back, hb⟩ := hb
    have hbn := backRef_names hb
    rw [tell_told hb] at hone ⊢
    have hkeep : keepNames m1 o x.cls a.attr = m1 := by
      unfold keepNames
      rw [if_neg (fun e => (back_spec _ _ _ hb).1 e.2)]
    rw [hkeep] at hone ⊢
    have hal : Alone same m o := by
      apply hal
      have key : ∀ c : ECls, ((backRef c).all fun e => (eargs c).all fun a => !decide (a.attr = e.1) || decide (a.name = "process" ∨ a.name = "material")) = true := by
        intro c; cases c <;> decide +kernel
      have := key x.cls
      rw [hb] at this
      simp only [Option.all_some] at this
      have := List.all_eq_true.1 this a ha
      simpa using this
    obtain ⟨u, hu⟩ := attr_exists hW (mem := m) rfl hc (n := a.attr) (List.mem_append_left _ (List.mem_map.2 ⟨a, ha, rfl⟩))
    have hu1 : attrAt m1 o a.attr = some u := by rw [f1 o _ hab]; exact hu
    -- attributes and pointers in the end
    have hfwd : ∀ q b, b ∉ backNames → attrAt (told (setField m1 o a.attr (fun _ => w)) o back w) q b = if q = o ∧ b = a.attr then some w else attrAt m q b := by
      intro q b hb'
      rw [told_attr _ _ _ _ _ (fun e => hb' (by rw [e]; exact hbn)), attrAt_setField, hu1]
      split
      · rfl
      · exact f1 q b hb'
    have hsk : (told (setField m1 o a.attr (fun _ => w)) o back w).map skel = m.map skel := by rw [told_skel, setField_skel, s1]
    have hcls : ∀ q, clsAt (told (setField m1 o a.attr (fun _ => w)) o back w) q = clsAt m q := clsAt_skel hsk
    have hpt : ∀ b, Points (told (setField m1 o a.attr (fun _ => w)) o back w) back o b ↔ w = .ref b := by
      intro b
      rw [points_there (by rw [hcls]; exact hc) hb, hfwd o _ hab, if_pos ⟨rfl, rfl⟩]
      simp
    have hother : ∀ n q b, ¬ (q = o ∧ n = back) → (Points (told (setField m1 o a.attr (fun _ => w)) o back w) n q b ↔ Points m n q b) := by
      intro n q b hno
      have hne : ∀ c' there, clsAt m q = some c' → backRef c' = some (there, n) → ¬ (q = o ∧ there = a.attr) := by
        rintro c' there e1 e2 ⟨rfl, rfl⟩
        rw [hc] at e1
        cases e1
        rw [hb] at e2
        cases e2
        exact hno ⟨rfl, rfl⟩
      rw [points_attr, points_attr]
      constructor
      · rintro ⟨c', there, e1, e2, e3⟩
        rw [hcls] at e1
        rw [hfwd q there (backRef_there e2), if_neg (hne c' there e1 e2)] at e3
        exact ⟨c', there, e1, e2, e3⟩
      · rintro ⟨c', there, e1, e2, e3⟩
        exact ⟨c', there, by rw [hcls]; exact e1, e2, by rw [hfwd q there (backRef_there e2), if_neg (hne c' there e1 e2)]; exact e3⟩
    -- what is told after the old value has been forgotten
    have hforget : ∀ b n v, n ∈ backNames → attrAt m1 b n = some v → Tells (fun q => Points m n q b ∧ ¬ (q = o ∧ n = back)) n v := by
      have hpo : ∀ p, Points m back o p ↔ u = .ref p := by
        intro p; rw [points_there hc hb, hu]; simp
      have keep : ∀ b n v, n ∈ backNames → attrAt m b n = some v → ¬ (u = .ref b ∧ n = back) → Tells (fun q => Points m n q b ∧ ¬ (q = o ∧ n = back)) n v := by
        intro b n v hn hv hne
        refine (lists_iff.1 (h2 b n v hn hv)).congr (fun q => ⟨fun h => h.1, fun hq => ⟨hq, ?_⟩⟩)
        rintro ⟨rfl, rfl⟩
        exact hne ⟨(hpo b).1 hq, rfl⟩
      unfold unlink at hm1
      rw [hb] at hm1
      simp only [if_true, hu] at hm1
      by_cases hup : ∃ p, u = .ref p
      · obtain ⟨p, rfl⟩ := hup
        simp only at hm1
        have hpoints : Points m back o p := (hpo p).2 rfl
        -- the new value there
        have hfin : ∃ v', m1 = setField m p back (fun _ => v') ∧ ((∃ v, attrAt m p back = some v) → Tells (fun q => Points m back q p ∧ q ≠ o) back v') := by
          split at hm1
          · rename_i e
            cases hm1
            refine ⟨.none, rfl, ?_⟩
            rintro ⟨v, hv⟩
            refine .none e (fun q hq => ?_)
            cases h2 p back v hbn hv with
            | none _ hno => exact hno o hpoints
            | one q' _ _ huniq => exact hq.2 ((huniq q hq.1).trans (huniq o hpoints).symm)
            | many _ e' _ _ => exact e' e
          · rename_i e
            split at hm1
            · rename_i l hl
              split at hm1
              · cases hm1
              · rename_i l' hl'
                cases hm1
                refine ⟨.list l', rfl, fun _ => ?_⟩
                have hL := h2 p back _ hbn hl
                generalize hlv : V.list l = lv at hL
                cases hL with
                | none e' _ => exact absurd e' e
                | one _ e' _ _ => exact absurd e' e
                | many as _ hnd hiff =>
                  cases hlv
                  rw [removeFirst_ref (isSame same m o) o (by simp [isSame]) as (fun q hq hqo => by
                    simp [isSame, hqo, hal q back p hqo ((hiff q).1 hq) hpoints]) hnd ((hiff o).2 hpoints)] at hl'
                  cases hl'
                  refine .many _ e (hnd.filter _) (fun q => ?_)
                  rw [List.mem_filter, hiff q]
                  simp
            · cases hm1
        obtain ⟨v', rfl, hv'⟩ := hfin
        intro b n v hn hv
        rw [attrAt_setField] at hv
        split at hv
        · rename_i e
          obtain ⟨rfl, rfl⟩ := e
          cases h : attrAt m b n with
          | none => simp [h] at hv
          | some z =>
            simp only [h, Option.map_some, Option.some.injEq] at hv
            rw [← hv]
            refine (hv' ⟨z, h⟩).congr (fun q => ?_)
            simp
        · rename_i e
          exact keep b n v hn hv (fun e' => e ⟨(V.ref.inj e'.1).symm, e'.2⟩)
      · have : m1 = m := by
          revert hm1
          split
          · rename_i p e
            exact absurd ⟨p, Option.some.inj e⟩ hup
          · intro h; cases h; rfl
        rw [this]
        intro b n v hn hv
        exact keep b n v hn hv (fun e => hup ⟨b, e.1⟩)
    refine told_twoWay (fun b n v hn hv => ?_) hpt hone
    rw [attrAt_setField, if_neg (fun e => hab (by rw [← e.2]; exact hn))] at hv
    refine (hforget b n v hn hv).congr (fun q => ?_)
    constructor
    · rintro ⟨h, hno⟩
      exact ⟨(hother n q b hno).1 h, hno⟩
    · rintro ⟨h, hno⟩
      exact ⟨(hother n q b hno).2 h, hno⟩
  · have hun : m1 = m := by
      unfold unlink at hm1
      revert hm1
      split
      · intro h; cases h; rfl
      · rename_i there back hb'
        rw [if_neg (fun e => hb ⟨back, by rw [hb', e]⟩)]
        intro h; cases h; rfl
    have htell : ∀ mem, tell mem o x.cls a.attr w = mem := by
      intro mem
      unfold tell
      split
      · rfl
      · rename_i there back hb'
        rw [if_neg (fun e => hb ⟨back, by rw [hb', e]⟩)]
    rw [htell]
    subst hun
    refine twoWay_same (by rw [setField_skel, s2]) (fun q n hn => ?_) (fun q c there back e1 e2 => ?_) h2
    · rw [attrAt_setField, if_neg (fun e => hab (by rw [← e.2]; exact hn))]
      exact f2 q n (hnames n hn)
    · rw [attrAt_setField, if_neg]
      · exact f2 q there (htnames c there back e2)
      · rintro ⟨rfl, rfl⟩
        rw [hc] at e1
        cases e1
        exact hb ⟨back, e2⟩

/-- an attribute that holds a list is not a link -/
theorem change_link (hW : WellTyped env m) {n : String} {l : List V} (h : value m o n = some (.list l)) {x : EObj} (hx : m[o]? = some x) {a : EArg}
    (ha : a ∈ eargs x.cls) (hn : a.name = n) : ∀ back, backRef x.cls ≠ some (a.attr, back) := by
  intro back hb
  obtain ⟨y, b, hy, hb', hn', hv⟩ := value_attr h
  rw [hx] at hy
  cases hy
  have e : b = a := by
    have hinj : ∀ as : List EArg, (as.map EArg.name).Nodup → ∀ a ∈ as, ∀ b ∈ as, a.name = b.name → a = b := by
      intro as
      induction as with
      | nil => intro _ a ha; simp at ha
      | cons c as ih =>
        intro hnd a ha b hb e
        simp only [List.map_cons, List.nodup_cons] at hnd
        rcases List.mem_cons.1 ha with ha | ha <;> rcases List.mem_cons.1 hb with hb | hb
        · rw [ha, hb]
        · exact absurd (List.mem_map.2 ⟨b, hb, by rw [← e, ha]⟩) hnd.1
        · exact absurd (List.mem_map.2 ⟨a, ha, by rw [e, hb]⟩) hnd.1
        · exact ih hnd.2 a ha b hb e
    exact hinj _ (eargs_names x.cls).1 b hb' a ha (hn'.trans hn.symm)
  subst e
  obtain ⟨cs, hk⟩ := kind_back _ _ _ hb
  have hf := (fits_of_typed hW (c := x.cls) (by simp [clsAt, hx]) hv (back_attr _ b ha)).conv
  rw [hk] at hf
  simp [conv, convTarget, isLink, isCls] at hf

/-- a change to a list -/
theorem change_twoWay (hs : Sane env) (hW : WellTyped env m) (h2 : TwoWay m) {n : String} {l l' : List V} (hl : value m o n = some (.list l)) {m' : Mem}
    (h : assign env same m o n (.list l') = .ok m') : TwoWay m' := by
  obtain ⟨x, a, w, m1, hx, ha, e, hw, hm1, rfl⟩ := assign_parts h
  have hb := change_link hW hl hx ha e
  have hc : clsAt m o = some x.cls := by simp [clsAt, hx]
  have hab := back_attr _ a ha
  have hun : m1 = m := by
    unfold unlink at hm1
    revert hm1
    split
    · intro h; cases h; rfl
    · rename_i there back hb'
      rw [if_neg (fun e => hb back (by rw [hb', e]))]
      intro h; cases h; rfl
  have htell : ∀ mem, tell mem o x.cls a.attr w = mem := by
    intro mem
    unfold tell
    split
    · rfl
    · rename_i there back hb'
      rw [if_neg (fun e => hb back (by rw [hb', e]))]
  rw [htell]
  subst hun
  obtain ⟨w2, g2, s2, f2⟩ := keep_wellTyped hW hc a.attr
  have hnames : ∀ n ∈ backNames, n ≠ "_name" ∧ n ≠ "_labels" := by decide
  refine twoWay_same (by rw [setField_skel, s2]) (fun q n hn => ?_) (fun q c there back e1 e2 => ?_) h2
  · rw [attrAt_setField, if_neg (fun e => hab (by rw [← e.2]; exact hn))]
    exact f2 q n (hnames n hn)
  · rw [attrAt_setField, if_neg]
    · refine f2 q there ?_
      cases c <;> simp [backRef] at e2 <;> simp [e2.1.symm]
    · rintro ⟨rfl, rfl⟩
      rw [hc] at e1
      cases e1
      exact hb back e2

theorem uids_attr {x : EObj} (hx : m[o]? = some x) (u : List (String × String)) : (∀ q b, attrAt (m.set o { x with uids := u }) q b = attrAt m q b) ∧
    ∀ q, clsAt (m.set o { x with uids := u }) q = clsAt m q := by
  have hlt := (List.getElem?_eq_some_iff.1 hx).1
  constructor
  · intro q b
    unfold attrAt
    rw [List.getElem?_set]
    by_cases e : o = q
    · subst e
      simp only [if_true, hlt, hx, Option.map_some]
    · simp [e]
  · intro q
    unfold clsAt
    rw [List.getElem?_set]
    by_cases e : o = q
    · subst e
      simp only [if_true, hlt, hx, Option.map_some]
    · simp [e]

theorem uids_twoWay (h2 : TwoWay m) {x : EObj} (hx : m[o]? = some x) (u : List (String × String)) : TwoWay (m.set o { x with uids := u }) := by
  obtain ⟨h1, h3⟩ := uids_attr hx u
  intro b n v hn hv
  rw [h1] at hv
  refine (h2 b n v hn hv).congr (fun q => ?_)
  rw [points_attr, points_attr]
  simp only [h1, h3]

/-- C67: after careful changes two-way links agree -/
theorem C67_two_way_partial (hs : Sane env) (h : Edited env same true m) : TwoWay m := by
  have hT := fun {m} => C67_well_typed (env := env) (same := same) (m := m) hs (care := true)
  induction h with
  | nil => intro b n v hn hv; simp [attrAt] at hv
  | call m c kwargs o m' hm hk hc ho ih => exact call_twoWay hs (hT hm) ih (fun e he => ⟨(hk e he).1.okV hs, (hk e he).2⟩) hc (ho rfl)
  | assign m o n v m' hm hv hk hn h ho ih => exact assign_twoWay hs (hT hm) ih h (ho rfl).1 (ho rfl).2
  | change m o n l l' m' hm hl hv h ih => exact change_twoWay hs (hT hm) ih hl h
  | uids m o v m' hm h ih =>
    obtain ⟨x, u, hx, hu, rfl⟩ := uids_parts h
    exact uids_twoWay ih hx u
  | addUid m o s i m' hm h ih =>
    obtain ⟨x, u, hx, hu, rfl⟩ := addUid_parts (hT hm) h
    exact uids_twoWay ih hx u

/-! ## What back references hold -/

/-- which class has a back reference to which -/
def partners : List (String × ECls × ECls) :=
  [("_output_material", .processRun, .materialRun), ("_output_material", .processSpec, .materialSpec), ("_ingredients", .processRun, .ingredientRun),
   ("_ingredients", .processSpec, .ingredientSpec), ("_measurements", .materialRun, .measurementRun)]

/-- there is an entity `a`, of the class that the back reference `n` of an entity of class `c` is for -/
def Partner (m : Mem) (n : String) (c : ECls) (a : Nat) : Prop := ∃ d, clsAt m a = some d ∧ (n, c, d) ∈ partners

/-- what the back reference `n` of an entity of class `c` may hold -/
inductive BackHolds (m : Mem) (n : String) (c : ECls) : V → Prop where
  | none : n = "_output_material" → BackHolds m n c .none
  | one (a : Nat) : n = "_output_material" → Partner m n c a → BackHolds m n c (.ref a)
  | many (as : List Nat) : n ≠ "_output_material" → (∀ a ∈ as, Partner m n c a) → BackHolds m n c (.list (as.map .ref))

/-- all back references hold what they may -/
def BackOk (m : Mem) : Prop := ∀ b n v c, n ∈ backNames → clsAt m b = some c → attrAt m b n = some v → BackHolds m n c v

theorem BackHolds.mono {m m' : Mem} {n : String} {c : ECls} {v : V} (h : BackHolds m n c v) (hc : ∀ a d, clsAt m a = some d → clsAt m' a = some d) : BackHolds m' n c v := by
  have hp : ∀ a, Partner m n c a → Partner m' n c a := fun a ⟨d, h1, h2⟩ => ⟨d, hc a d h1, h2⟩
  cases h with
  | none h => exact .none h
  | one a h1 h2 => exact .one a h1 (hp a h2)
  | many as h1 h2 => exact .many as h1 (fun a ha => hp a (h2 a ha))

theorem BackOk.alike {m m' : Mem} (h : BackOk m) (hc : ∀ q, clsAt m' q = clsAt m q) (hb : ∀ q n, n ∈ backNames → attrAt m' q n = attrAt m q n) : BackOk m' := by
  intro b n v c hn hbc hv
  rw [hc] at hbc
  rw [hb b n hn] at hv
  exact (h b n v c hn hbc hv).mono (fun a d e => by rw [hc]; exact e)

theorem partner_target {c : ECls} {there back : String} (hb : backRef c = some (there, back)) {cs : List ECls} (hk : kindOf c there = .target cs) :
    ∀ d ∈ cs, (back, d, c) ∈ partners := by
  have key : ∀ c : ECls, ((backRef c).all fun e => match kindOf c e.1 with
      | .target cs => cs.all fun d => decide ((e.2, d, c) ∈ partners)
      | _ => true) = true := by intro c; cases c <;> decide +kernel
  have := key c
  rw [hb] at this
  simp only [Option.all_some, hk] at this
  intro d hd
  simpa using List.all_eq_true.1 this d hd

theorem told_backOk (h : BackOk m) {back : String} {w : V} {c : ECls} (hc : clsAt m o = some c) (hw : ∀ p, w = .ref p → ∀ d, clsAt m p = some d → (back, d, c) ∈ partners) :
    BackOk (told m o back w) := by
  intro b n v d hn hbd hv
  rw [clsAt_skel (told_skel _ _ _)] at hbd
  have hcl : ∀ a d, clsAt m a = some d → clsAt (told m o back w) a = some d := fun a d e => by rw [clsAt_skel (told_skel _ _ _)]; exact e
  by_cases hp : w = .ref b ∧ n = back
  · obtain ⟨rfl, rfl⟩ := hp
    have hP : Partner (told m o n (.ref b)) n d o := ⟨c, hcl o c hc, hw b rfl d hbd⟩
    simp only [told] at hv
    rw [attrAt_setField, if_pos ⟨rfl, rfl⟩] at hv
    cases hu : attrAt m b n with
    | none => simp [hu] at hv
    | some u =>
      simp only [hu, Option.map_some, Option.some.injEq] at hv
      split at hv
      · rename_i e
        rw [← hv]
        exact .one o e hP
      · rename_i e
        have hB := (h b n u d hn hbd hu).mono hcl
        cases hB with
        | none e' => exact absurd e' e
        | one _ e' _ => exact absurd e' e
        | many as _ has =>
          have : v = .list ((as ++ [o]).map .ref) := by rw [← hv]; simp [appendTo]
          rw [this]
          refine .many _ e (fun a ha => ?_)
          rcases List.mem_append.1 ha with ha | ha
          · exact has a ha
          · rw [List.mem_singleton] at ha
            rw [ha]; exact hP
  · have : attrAt m b n = some v := by
      rw [← hv]
      unfold told
      split
      · rename_i p
        rw [attrAt_setField, if_neg]
        rintro ⟨rfl, rfl⟩
        exact hp ⟨rfl, rfl⟩
      · rfl
    exact (h b n v d hn hbd this).mono hcl

theorem removeFirst_refs (p : V → Bool) : ∀ (as : List Nat) (l : List V), removeFirst p (as.map .ref) = .ok l → ∃ bs : List Nat, l = bs.map .ref ∧ ∀ b ∈ bs, b ∈ as := by
  intro as
  induction as with
  | nil => intro l h; simp [removeFirst] at h
  | cons a as ih =>
    intro l h
    simp only [List.map_cons, removeFirst] at h
    split at h
    · cases h
      exact ⟨as, rfl, fun b hb => by simp [hb]⟩
    · split at h
      · cases h
      · rename_i ws hws
        cases h
        obtain ⟨bs, rfl, hbs⟩ := ih ws hws
        refine ⟨a :: bs, rfl, fun b hb => ?_⟩
        rcases List.mem_cons.1 hb with rfl | hb
        · simp
        · simp [hbs b hb]

theorem unlink_backOk (h : BackOk m) {c : ECls} {a : String} {m1 : Mem} (hu : unlink same m o c a = .ok m1) : BackOk m1 := by
  have set : ∀ p back v', (∀ d u, clsAt m p = some d → attrAt m p back = some u → BackHolds m back d v') → BackOk (setField m p back (fun _ => v')) := by
    intro p back v' hv' b n v d hn hbd hv
    rw [clsAt_skel (setField_skel _ _ _ _)] at hbd
    have hcl : ∀ a d, clsAt m a = some d → clsAt (setField m p back (fun _ => v')) a = some d := fun a d e => by rw [clsAt_skel (setField_skel _ _ _ _)]; exact e
    rw [attrAt_setField] at hv
    split at hv
    · rename_i e
      obtain ⟨rfl, rfl⟩ := e
      cases hu : attrAt m b n with
      | none => simp [hu] at hv
      | some u =>
        simp only [hu, Option.map_some, Option.some.injEq] at hv
        rw [← hv]
        exact (hv' d u hbd hu).mono hcl
    · exact (h b n v d hn hbd hv).mono hcl
  unfold unlink at hu
  split at hu
  · cases hu; exact h
  · rename_i there back hb
    split at hu
    · split at hu
      · rename_i p hp
        split at hu
        · rename_i e
          cases hu
          exact set p back .none (fun _ _ _ _ => .none e)
        · rename_i e
          split at hu
          · rename_i l hl
            split at hu
            · cases hu
            · rename_i l' hl'
              cases hu
              refine set p back _ (fun d u hd hu' => ?_)
              rw [hl] at hu'
              cases hu'
              have hB := h p back _ d (backRef_names hb) hd hl
              generalize hlv : V.list l = lv at hB
              cases hB with
              | none e' => exact absurd e' e
              | one _ e' _ => exact absurd e' e
              | many as _ has =>
                cases hlv
                obtain ⟨bs, rfl, hbs⟩ := removeFirst_refs _ as l' hl'
                exact .many bs e (fun b hb => has b (hbs b hb))
          · cases hu
      · cases hu; exact h
    · cases hu; exact h

/-- what a link points to has the right class -/
theorem target_class {cs : List ECls} {v w : V} (h : convTarget m cs v = .ok w) : ∀ p, w = .ref p → ∃ d, clsAt m p = some d ∧ d ∈ cs := by
  rintro p rfl
  unfold convTarget at h
  split at h
  · rename_i hc
    cases h
    simp only [isLink, isCls, reduceCtorEq, false_or] at hc
    unfold clsAt
    cases hx : m[p]? with
    | none => simp [hx] at hc
    | some x => simp [hx] at hc; exact ⟨x.cls, rfl, hc⟩
  · cases h

theorem assign_backOk (hs : Sane env) (hW : WellTyped env m) (hB : BackOk m) {n : String} {v : V} {m' : Mem} (h : assign env same m o n v = .ok m') : BackOk m' := by
  obtain ⟨x, a, w, m1, hx, ha, rfl, hw, hm1, rfl⟩ := assign_parts h
  have hc : clsAt m o = some x.cls := by simp [clsAt, hx]
  obtain ⟨w1, g1, s1, f1⟩ := unlink_wellTyped hW hm1
  have hc1 : clsAt m1 o = some x.cls := by rw [clsAt_skel s1]; exact hc
  obtain ⟨w2, g2, s2, f2⟩ := keep_wellTyped w1 hc1 a.attr
  have hab := back_attr _ a ha
  have hnames : ∀ n ∈ backNames, n ≠ "_name" ∧ n ≠ "_labels" := by decide
  have h1 := unlink_backOk hB hm1
  have h2 : BackOk (keepNames m1 o x.cls a.attr) := h1.alike (clsAt_skel s2) (fun q n hn => f2 q n (hnames n hn))
  have hsk := setField_skel (keepNames m1 o x.cls a.attr) o a.attr (fun _ => w)
  have h3 : BackOk (setField (keepNames m1 o x.cls a.attr) o a.attr (fun _ => w)) := h2.alike (clsAt_skel hsk)
    (fun q n hn => by rw [attrAt_setField, if_neg (fun e => hab (by rw [← e.2]; exact hn))])
  have hcls : ∀ q, clsAt (setField (keepNames m1 o x.cls a.attr) o a.attr (fun _ => w)) q = clsAt m q := fun q => by
    rw [clsAt_skel hsk, clsAt_skel s2, clsAt_skel s1]
  by_cases hb : ∃ back, backRef x.cls = some (a.attr, back)
  · obtain ⟨back, hb⟩ := hb
    rw [tell_told hb]
    obtain ⟨cs, hk⟩ := kind_back _ _ _ hb
    rw [kindOf_arg ha] at hk
    rw [hk] at hw
    refine told_backOk h3 (by rw [hcls]; exact hc) (fun p hp d hd => ?_)
    rw [hcls] at hd
    obtain ⟨d', hd', hmem⟩ := target_class (by simpa only [conv] using hw) p hp
    rw [hd] at hd'
    cases hd'
    exact partner_target hb (by rw [kindOf_arg ha]; exact hk) d hmem
  · have htell : ∀ mem, tell mem o x.cls a.attr w = mem := by
      intro mem
      unfold tell
      split
      · rfl
      · rename_i there back hb'
        rw [if_neg (fun e => hb ⟨back, by rw [hb', e]⟩)]
    rw [htell]
    exact h3

theorem call_backOk (hs : Sane env) (hW : WellTyped env m) (hB : BackOk m) {c : ECls} {kwargs : List (String × V)}
    (hk : ∀ e ∈ kwargs, okV env m e.2 ∧ strKeys e.2) {m' : Mem} (hc : constructE env m c kwargs = .ok (o, m')) : BackOk m' := by
  unfold constructE at hc
  split at hc
  · cases hc
  · rename_i x hx
    cases hc
    obtain ⟨h1, vals, hsh⟩ := newEntity_shape hs hk hx
    have hcls : clsAt (m ++ [x]) m.length = some x.cls := by simp [clsAt]
    have hmono : ∀ a d, clsAt m a = some d → clsAt (m ++ [x]) a = some d := by
      intro a d h
      unfold clsAt at h ⊢
      cases hy : m[a]? with
      | none => simp [hy] at h
      | some y => rw [List.getElem?_append_left (List.getElem?_eq_some_iff.1 hy).1]; exact h
    have hbase : BackOk (m ++ [x]) := by
      intro b n v d hn hbd hv
      rcases Nat.lt_trichotomy b m.length with hb | rfl | hb
      · refine (hB b n v d hn ?_ ?_).mono hmono
        · rw [← hbd]; unfold clsAt; rw [List.getElem?_append_left hb]
        · rw [← hv]; unfold attrAt; rw [List.getElem?_append_left hb]
      · rw [hcls] at hbd
        cases hbd
        have hv' : Dict.get? (ownFields x.cls) n = some v := by
          have : Dict.get? x.fields n = some v := by simpa [attrAt] using hv
          rw [hsh.fields, get?_append_right _ _ _ (backNames_args x.cls n hn), ← h1] at this
          exact this
        have key : ∀ c : ECls, ∀ n ∈ backNames, ((Dict.get? (ownFields c) n).all fun v => if n = "_output_material" then decide (v = .none) else decide (v = .list [])) = true := by
          intro c; cases c <;> decide +kernel
        have := key x.cls n hn
        rw [hv'] at this
        simp only [Option.all_some] at this
        split at this
        · rename_i e
          rw [of_decide_eq_true this]
          exact .none e
        · rename_i e
          rw [of_decide_eq_true this]
          exact .many [] e (by simp)
      · rw [clsAt, List.getElem?_eq_none (by simp; omega)] at hbd
        cases hbd
    cases hb : backRef x.cls with
    | none =>
      have hlb : linkBack (m ++ [x]) m.length x = m ++ [x] := by unfold linkBack; rw [hb]
      rw [hlb]
      exact hbase
    | some e =>
      obtain ⟨there, back⟩ := e
      obtain ⟨a, ha, ea, _⟩ := backRef_arg _ _ _ hb
      obtain ⟨a', w, hz, ea', hw⟩ := get?_arg hsh.len (ownFields c) ⟨a, ha, ea⟩
      rw [← hsh.fields] at hw
      have htold : linkBack (m ++ [x]) m.length x = told (m ++ [x]) m.length back w := by
        unfold linkBack told
        rw [hb]
        simp only
        rw [hw]
        cases w <;> rfl
      rw [htold]
      obtain ⟨cs, hk'⟩ := backRef_target _ _ _ hb a' (List.of_mem_zip hz).1 ea'
      have hcv := hsh.conv _ hz
      simp only [hk'] at hcv
      refine told_backOk hbase hcls (fun p hp d hd => ?_)
      obtain ⟨d', hd', hmem⟩ := target_class (by simpa only [conv] using hcv) p hp
      rw [hmono p d' hd'] at hd
      rw [← Option.some.inj hd]
      exact partner_target hb (by rw [← ea', kindOf_arg (List.of_mem_zip hz).1]; exact hk') d' hmem

/-- C67: a back reference names existing entities of the right class, at any time -/
theorem C67_back_references (hs : Sane env) {care : Bool} (h : Edited env same care m) : BackOk m := by
  have hT := fun {m} => C67_well_typed (env := env) (same := same) (m := m) hs (care := care)
  induction h with
  | nil => intro b n v c hn hv; simp [clsAt] at hv
  | call m c kwargs o m' hm hk hc _ ih => exact call_backOk hs (hT hm) ih (fun e he => ⟨(hk e he).1.okV hs, (hk e he).2⟩) hc
  | assign m o n v m' hm hv hk hn h _ ih => exact assign_backOk hs (hT hm) ih h
  | change m o n l l' m' hm hl hv h ih => exact assign_backOk hs (hT hm) ih h
  | uids m o v m' hm h ih =>
    obtain ⟨x, u, hx, hu, rfl⟩ := uids_parts h
    exact ih.alike (uids_attr hx u).2 (fun q n _ => (uids_attr hx u).1 q n)
  | addUid m o s i m' hm h ih =>
    obtain ⟨x, u, hx, hu, rfl⟩ := addUid_parts (hT hm) h
    exact ih.alike (uids_attr hx u).2 (fun q n _ => (uids_attr hx u).1 q n)

/-! ## The effect of one assignment -/

theorem name_inj {c : ECls} {a b : EArg} (ha : a ∈ eargs c) (hb : b ∈ eargs c) (e : a.name = b.name) : a = b := by
  have hinj : ∀ as : List EArg, (as.map EArg.name).Nodup → ∀ a ∈ as, ∀ b ∈ as, a.name = b.name → a = b := by
    intro as
    induction as with
    | nil => intro _ a ha; simp at ha
    | cons c as ih =>
      intro hnd a ha b hb e
      simp only [List.map_cons, List.nodup_cons] at hnd
      rcases List.mem_cons.1 ha with ha | ha <;> rcases List.mem_cons.1 hb with hb | hb
      · rw [ha, hb]
      · exact absurd (List.mem_map.2 ⟨b, hb, by rw [← e, ha]⟩) hnd.1
      · exact absurd (List.mem_map.2 ⟨a, ha, by rw [e, hb]⟩) hnd.1
      · exact ih hnd.2 a ha b hb e
  exact hinj _ (eargs_names c).1 a ha b hb e

theorem find_name_of {c : ECls} {a : EArg} (ha : a ∈ eargs c) : (eargs c).find? (fun b => decide (b.name = a.name)) = some a := by
  cases h : (eargs c).find? (fun b => decide (b.name = a.name)) with
  | none => exact absurd (List.find?_eq_none.1 h a ha) (by simp)
  | some b =>
    obtain ⟨h1, h2⟩ := find_name h
    rw [name_inj h1 ha h2]

theorem value_eq (o : Nat) (n : String) : value m o n = (clsAt m o).bind fun c => ((eargs c).find? (fun a => decide (a.name = n))).bind fun a => attrAt m o a.attr := by
  unfold value clsAt
  cases m[o]? with
  | none => rfl
  | some x => simp only [Option.map_some, Option.bind_some]; cases (eargs x.cls).find? (fun a => decide (a.name = n)) <;> rfl

theorem tell_attr (o : Nat) (c : ECls) (a : String) (w : V) (q : Nat) (b : String) (hb : b ∉ backNames) : attrAt (tell m o c a w) q b = attrAt m q b := by
  unfold tell
  split
  · rfl
  · rename_i there back hr
    split
    · split
      · rw [attrAt_setField, if_neg (fun e => hb (by rw [e.2]; exact backRef_names hr))]
      · rfl
    · rfl

theorem tell_skel (o : Nat) (c : ECls) (a : String) (w : V) : (tell m o c a w).map skel = m.map skel := by
  unfold tell
  split
  · rfl
  · split
    · split
      · rw [setField_skel]
      · rfl
    · rfl

/-- C67: after `x.n = v` the attribute is what the setter makes of `v`, and all others that can be set, of all entities, are as they were. -/
theorem C67_effect {care : Bool} (hs : Sane env) (hm : Edited env same care m) {n : String} {v : V} {m' : Mem} (h : assign env same m o n v = .ok m') :
    (∃ w, convertTo env m o n v = .ok w ∧ value m' o n = some w) ∧ (∀ q k, ¬ (q = o ∧ k = n) → value m' q k = value m q k) ∧
      ∀ q, clsAt m' q = clsAt m q := by
  have hW := C67_well_typed hs hm
  obtain ⟨x, a, w, m1, hx, ha, rfl, hw, hm1, rfl⟩ := assign_parts h
  have hc : clsAt m o = some x.cls := by simp [clsAt, hx]
  obtain ⟨w1, g1, s1, f1⟩ := unlink_wellTyped hW hm1
  have hc1 : clsAt m1 o = some x.cls := by rw [clsAt_skel s1]; exact hc
  obtain ⟨w2, g2, s2, f2⟩ := keep_wellTyped w1 hc1 a.attr
  have hab := back_attr _ a ha
  have hcls : ∀ q, clsAt (tell (setField (keepNames m1 o x.cls a.attr) o a.attr (fun _ => w)) o x.cls a.attr w) q = clsAt m q := fun q => by
    rw [clsAt_skel (tell_skel _ _ _ _), clsAt_skel (setField_skel _ _ _ _), clsAt_skel s2, clsAt_skel s1]
  -- the attributes, except the names of ingredient runs
  have hkeep : ∀ q b, (∀ c, clsAt m q = some c → ¬ isName c b) → attrAt (keepNames m1 o x.cls a.attr) q b = attrAt m1 q b := by
    intro q b hb
    unfold keepNames
    split
    · rename_i hi
      split
      · split
        · rw [attrAt_setField, if_neg, attrAt_setField, if_neg]
          · rintro ⟨rfl, rfl⟩; exact hb _ hc ⟨hi.1, .inl rfl⟩
          · rintro ⟨rfl, rfl⟩; exact hb _ hc ⟨hi.1, .inr rfl⟩
        · rfl
      · rfl
    · rfl
  have hall : ∀ q b, b ∉ backNames → (∀ c, clsAt m q = some c → ¬ isName c b) →
      attrAt (tell (setField (keepNames m1 o x.cls a.attr) o a.attr (fun _ => w)) o x.cls a.attr w) q b = if q = o ∧ b = a.attr then (attrAt m o a.attr).map (fun _ => w) else attrAt m q b := by
    intro q b hb hn
    rw [tell_attr _ _ _ _ _ _ hb, attrAt_setField]
    split
    · rename_i e
      obtain ⟨rfl, rfl⟩ := e
      rw [hkeep _ _ hn, f1 _ _ hb]
    · rw [hkeep _ _ hn, f1 _ _ hb]
  have hnn : ∀ c, ∀ b ∈ eargs c, ¬ isName c b.attr := by
    rintro c b hb ⟨e1, e2⟩
    have := (eargs_attr c b hb).2.2 e1
    exact e2.elim this.1 this.2
  refine ⟨⟨w, ?_, ?_⟩, fun q k hne => ?_, hcls⟩
  · simp only [convertTo, hx, find_name_of ha, hw]
  · rw [value_eq, hcls, hc]
    simp only [Option.bind_some, find_name_of ha]
    rw [hall o a.attr hab (fun c e => by rw [hc] at e; cases e; exact hnn _ a ha), if_pos ⟨rfl, rfl⟩]
    obtain ⟨u, hu⟩ := attr_exists hW (mem := m) rfl hc (n := a.attr) (List.mem_append_left _ (List.mem_map.2 ⟨a, ha, rfl⟩))
    rw [hu]
    rfl
  · rw [value_eq, value_eq, hcls]
    cases hq : clsAt m q with
    | none => rfl
    | some c =>
      simp only [Option.bind_some]
      cases hb : (eargs c).find? (fun b => decide (b.name = k)) with
      | none => rfl
      | some b =>
        obtain ⟨hb1, hb2⟩ := find_name hb
        simp only [Option.bind_some]
        rw [hall q b.attr (back_attr _ b hb1) (fun c' e => by rw [hq] at e; cases e; exact hnn _ b hb1), if_neg]
        rintro ⟨rfl, e⟩
        rw [hc] at hq
        cases hq
        have hbk := kindOf_arg hb1
        have : b = a := by
          have h1 := find_earg (eargs_attrs x.cls) hb1
          have h2 := find_earg (eargs_attrs x.cls) ha
          rw [e, h2] at h1
          exact (Option.some.inj h1).symm
        subst this
        exact hne ⟨rfl, hb2.symm⟩

/-- C67: an assignment raises only if the setter does not take the value: what is pointed to so far can always be told -/
theorem C67_accepts_partial (hs : Sane env) (hm : Edited env same true m) {n : String} {v w : V} (hw : convertTo env m o n v = .ok w) :
    ∃ m', assign env same m o n v = .ok m' := by
  have hW := C67_well_typed hs hm
  have h2 := C67_two_way_partial hs hm
  unfold convertTo at hw
  split at hw
  · cases hw
  · rename_i x hx
    split at hw
    · cases hw
    · rename_i a ha
      have hc : clsAt m o = some x.cls := by simp [clsAt, hx]
      obtain ⟨ha1, _⟩ := find_name ha
      have hun : ∃ m1, unlink same m o x.cls a.attr = .ok m1 := by
        unfold unlink
        split
        · exact ⟨m, rfl⟩
        · rename_i there back hb
          split
          · rename_i e
            subst e
            split
            · rename_i p hp
              split
              · exact ⟨_, rfl⟩
              · rename_i e
                have hpt := (points_there hc hb p).2 hp
                obtain ⟨cs, hk⟩ := kind_back _ _ _ hb
                have hf := (fits_of_typed hW hc hp (back_attr _ a ha1)).conv
                rw [hk] at hf
                obtain ⟨d, hd, hmem⟩ := target_class (by simpa only [conv] using hf) p rfl
                obtain ⟨u, hu⟩ := attr_exists hW (mem := m) rfl hd (back_own _ _ _ hb hk d hmem)
                rw [hu]
                cases h2 p back u (backRef_names hb) hu with
                | none e' _ => exact absurd e' e
                | one _ e' _ _ => exact absurd e' e
                | many as _ hnd hiff =>
                  simp only
                  have : ∀ as : List Nat, o ∈ as → ∃ l, removeFirst (isSame same m o) (as.map .ref) = .ok l := by
                    intro as
                    induction as with
                    | nil => intro h; simp at h
                    | cons b as ih =>
                      intro h
                      simp only [List.map_cons, removeFirst]
                      split
                      · exact ⟨_, rfl⟩
                      · rename_i hne
                        rcases List.mem_cons.1 h with rfl | h
                        · exact absurd (by simp [isSame]) hne
                        · obtain ⟨l, hl⟩ := ih h
                          rw [hl]
                          exact ⟨_, rfl⟩
                  obtain ⟨l, hl⟩ := this as ((hiff o).2 hpt)
                  rw [hl]
                  exact ⟨_, rfl⟩
            · exact ⟨m, rfl⟩
          · exact ⟨m, rfl⟩
      obtain ⟨m1, hm1⟩ := hun
      refine ⟨tell (setField (keepNames m1 o x.cls a.attr) o a.attr (fun _ => w)) o x.cls a.attr w, ?_⟩
      unfold assign
      rw [hx]
      simp only [ha]
      unfold setAttr
      rw [kindOf_arg ha1, hw]
      simp only [hm1]

/-! ## What follows -/

/-- links agree, so they are as C43 needs them -/
theorem backLinked_of (h2 : TwoWay m) (root : V) : BackLinked m root := by
  intro b x hx hr n hn v hv
  cases h2 b n v hn (by simpa [attrAt, hx] using hv) with
  | none h1 h2 => exact .none h1 (fun a _ => h2 a)
  | one a h1 h2 h3 => exact .one a h1 h2 (fun c _ => h3 c)
  | many as h1 h2 h3 => exact .many as h1 h2 (fun a => (h3 a).1) (fun a _ => (h3 a).2)

theorem writable_of (hs : Sane env) (h : Edited env same true m) {obj : V} (graph : Flattenable env m obj)
    (there : ∀ o, Reachable m false obj (.ref o) → o < m.length) (hwf : Json.wf obj) (htup : Json.noTuple obj) (hok : okV env m obj)
    (apart : Unambiguous env.lower m obj) (foreign : Foreign env.lower m obj) : Writable env m obj :=
  ⟨graph, there, hwf, htup, hok, apart, foreign, backLinked_of (C67_two_way_partial hs h) obj⟩

/-- C67: what has been changed with care is written and read back as the same graph (C43) -/
theorem C67_round_trip_partial (hs : Sane env) (h : Edited env same true m) {obj : V} (graph : Flattenable env m obj)
    (there : ∀ o, Reachable m false obj (.ref o) → o < m.length) (hwf : Json.wf obj) (htup : Json.noTuple obj) (hok : okV env m obj)
    (apart : Unambiguous env.lower m obj) (foreign : Foreign env.lower m obj) (scope : String) (gen : Nat → String) (drawn : Nat) (hsc : scope ≠ "type")
    (hf : Fresh env.lower m obj scope gen drawn) :
    ∃ n m1 t M, (∀ n' ≥ n, dumps env scope gen n' m drawn obj = some (.ok (t, M))) ∧ Numbered scope m m1 obj ∧ Extends m1 M ∧
      ∀ M0 : Mem, ∃ w m' φ, loads env M0 t = .ok (w, m') ∧ Iso m1 obj m' w φ ∧ ∀ o, Reachable m1 false obj (.ref o) → M0.length ≤ φ o :=
  C43_round_trip_partial env m obj scope gen drawn (writable_of hs h graph there hwf htup hok apart foreign) hsc hf

/-- C67: and the copy is equal (C58) -/
theorem C67_copy_equal_partial (hs : Sane env) (h : Edited env same true m) {obj : V} (graph : Flattenable env m obj)
    (there : ∀ o, Reachable m false obj (.ref o) → o < m.length) (hwf : Json.wf obj) (htup : Json.noTuple obj) (hok : okV env m obj)
    (apart : Unambiguous env.lower m obj) (foreign : Foreign env.lower m obj) (scope : String) (gen : Nat → String) (drawn : Nat) (hsc : scope ≠ "type")
    (hf : Fresh env.lower m obj scope gen drawn) :
    ∃ (n : Nat) (m1 : Mem) (t : V) (M : Mem) (w : V) (m' : Mem) (φ : Nat → Nat), (∀ n' ≥ n, dumps env scope gen n' m drawn obj = some (.ok (t, M))) ∧
      Numbered scope m m1 obj ∧ Extends m1 M ∧ loads env M t = .ok (w, m') ∧ Extends M m' ∧ alike (fun o u => u = .ref (φ o)) SameLink obj w ∧
      (∀ o, Reachable m false obj (.ref o) → M.length ≤ φ o) ∧
      ∀ D : Nat → List (String × V), (∀ o, (D o).Perm (dictIn m' o)) → ∃ n k,
        eqV (uidsIn m') (equals (uidsIn m') D n k) obj w = some (.ok true) ∧
        ∀ o, Reachable m false obj (.ref o) → Result (uidsIn m') D o (φ o) (.ok true) ∧ Result (uidsIn m') D (φ o) o (.ok true) :=
  C58_copy_equal_partial env m obj scope gen drawn (writable_of hs h graph there hwf htup hok apart foreign) hsc hf

theorem back_value (hB : BackOk m) {x : EObj} (hx : m[o]? = some x) (k : String) (hk : k ∈ skip x.cls) : Repr.BackValue m (Repr.backRef x k) := by
  obtain ⟨hn, _⟩ := Repr.skip_own _ k hk
  unfold Repr.backRef
  cases hv : Dict.get? x.fields k with
  | none => exact .inl rfl
  | some v =>
    simp only [Option.getD_some]
    have hp : ∀ a, Partner m k x.cls a → Repr.Entry m (.ref a) := by
      rintro a ⟨d, h1, _⟩
      refine .inl ⟨a, rfl, ?_⟩
      unfold clsAt at h1
      cases hy : m[a]? with
      | none => simp [hy] at h1
      | some y => exact (List.getElem?_eq_some_iff.1 hy).1
    cases hB o k v x.cls hn (by simp [clsAt, hx]) (by simpa [attrAt, hx] using hv) with
    | none _ => exact .inl rfl
    | one a _ h => exact .inr (.inl (hp a h))
    | many as _ h =>
      refine .inr (.inr ⟨_, rfl, fun u hu => ?_⟩)
      obtain ⟨a, ha, rfl⟩ := List.mem_map.1 hu
      exact hp a (h a ha)

theorem stringPairs_of (ps : List (String × String)) : stringPairs (ps.map (fun p => .str p.1)) (ps.map (fun p => .str p.2)) = some ps := by
  induction ps with
  | nil => rfl
  | cons p ps ih => simp [stringPairs, ih]

/-- two scopes that differ only in case, or that occur twice -/
def Clashing (lower : String → String) (l : List String) : Prop := ¬ (l.map lower).Nodup

/-- C67: `x.uids = {...}` and `x.add_uid(s, i)` set the ids of `x`, refuse just those scopes that occur in other case, and change nothing else. -/
theorem C67_ids (hs : Sane env) {care : Bool} (h : Edited env same care m) {x : EObj} (hx : m[o]? = some x) :
    (∀ ps : List (String × String), Clashing env.lower (ps.map Prod.fst) →
      assignUids env m o (.dict (ps.map (fun p => .str p.1)) (ps.map (fun p => .str p.2))) = .error .valueError) ∧
    (∀ ps : List (String × String), ¬ Clashing env.lower (ps.map Prod.fst) →
      assignUids env m o (.dict (ps.map (fun p => .str p.1)) (ps.map (fun p => .str p.2))) = .ok (m.set o { x with uids := ps })) ∧
    (∀ s i, (∃ t, (Dict.get? x.uids t).isSome ∧ t ≠ s ∧ env.lower t = env.lower s) → addUid env m o s i = .error .valueError) ∧
    ∀ s i, (∀ t, (Dict.get? x.uids t).isSome → env.lower t = env.lower s → t = s) →
      ∃ u, addUid env m o s i = .ok (m.set o { x with uids := u }) ∧ Dict.get? u s = some i ∧ (∀ t, t ≠ s → Dict.get? u t = Dict.get? x.uids t) ∧
        ¬ Clashing env.lower (u.map Prod.fst) := by
  have hW := C67_well_typed hs h
  refine ⟨fun ps hc => ?_, fun ps hc => ?_, fun s i ⟨t, ht, hne, hl⟩ => ?_, fun s i hc => ?_⟩
  · have : clash env.lower (ps.map Prod.fst) = true := by
      rw [← Bool.not_eq_false, clash_iff]
      exact hc
    simp [assignUids, hx, convUids, stringPairs_of, this]
  · have : clash env.lower (ps.map Prod.fst) = false := by
      rw [clash_iff]
      exact Classical.not_not.1 hc
    simp [assignUids, hx, convUids, stringPairs_of, this]
  · obtain ⟨j, hj⟩ := Option.isSome_iff_exists.1 ht
    have : x.uids.any (fun p => decide (env.lower p.1 = env.lower s) && decide (p.1 ≠ s)) = true := by
      rw [List.any_eq_true]
      exact ⟨(t, j), Dict.mem_of_get? hj, by simp [hl, hne]⟩
    unfold addUid
    rw [hx]
    dsimp only
    rw [if_pos this]
  · have hno : ¬ x.uids.any (fun p => decide (env.lower p.1 = env.lower s) && decide (p.1 ≠ s)) = true := by
      rw [List.any_eq_true]
      rintro ⟨p, hp, h⟩
      simp only [Bool.and_eq_true, decide_eq_true_eq] at h
      exact h.2 (hc p.1 (Dict.get?_isSome_iff.2 (Dict.mem_keys.2 ⟨p.2, hp⟩)) h.1)
    have e : addUid env m o s i = .ok (m.set o { x with uids := Dict.set x.uids s i }) := by
      unfold addUid
      rw [hx]
      dsimp only
      rw [if_neg hno]
    refine ⟨_, e, Dict.get?_set_self _ _ _, fun t ht => by rw [Dict.get?_set, if_neg (fun e => ht e.symm)], ?_⟩
    obtain ⟨y, u, hy, hu, e'⟩ := addUid_parts hW e
    rw [hx] at hy
    cases hy
    have hlt := (List.getElem?_eq_some_iff.1 hx).1
    have := congrArg (fun l => (l[o]?).map EObj.uids) e'
    simp [List.getElem?_set_self, hlt] at this
    rw [this]
    exact fun hcl => hcl ((clash_iff _ _).1 hu)

/-- C67: `repr` returns (C66), whether the changes were made with care or not -/
theorem C67_repr (hs : Sane env) {care : Bool} (h : Edited env same care m) {v : V} (hv : ∀ o, V.ref o ∈ v.subs → o < m.length)
    (hf : ∀ o x, m[o]? = some x → Nested m v o → FreePlain (asDict m x) ∧ ∀ e ∈ asDict m x, FreeInside e.2) :
    ∃ t, Repr.reprV m v = .ok t ∧ Repr.Shows m v t := by
  have hT := C67_well_typed hs h
  have there : ∀ q o, Inside m q o → Nested m v q → o < m.length := by
    intro q o h
    induction h with
    | child h =>
      intro hq
      obtain ⟨x, hx, e, he, hp⟩ := h
      obtain ⟨y, hy, _⟩ := forward_refs hT hx (hf _ x hx hq).1 (hf _ x hx hq).2 he hp
      exact (List.getElem?_eq_some_iff.1 hy).1
    | deeper h _ ih => intro hq; exact ih (hq.step h)
  have hw : Repr.Whole m v := by
    refine ⟨?_, fun o x hx _ k hk => back_value (C67_back_references hs h) hx k hk⟩
    rintro o (ho | ⟨q, hq, ho⟩)
    · exact hv o ho
    · exact there q o ho (.inl hq)
  obtain ⟨t, e⟩ := (Repr.C66_returns hw).2 (C57_no_cycle hT hf)
  exact ⟨t, e, Repr.C66_shows hw e⟩
end

end Verif.Assign
