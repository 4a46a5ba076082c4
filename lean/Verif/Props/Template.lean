import Verif.Model.Template
import Verif.Props.Attribute
import Verif.Props.VListInv
/-!
# C23: object attributes are checked against the object's template. C25: attribute ranges of object templates
-/

set_option linter.unusedSectionVars false
set_option linter.dupNamespace false

namespace Verif.Template
open Verif.Py Verif.Bounds Verif.Level
open Verif.Attr (Complete Fits)

variable {U D α S P : Type} [LinearOrder α] [DecidableEq U] [DecidableEq D] [DecidableEq S]

/-! ## C25 -/

/-- every outcome admitted by `b` is admitted by `a`, and they are of the same kind -/
def Includes (us : UnitSys U D α) (a b : Bounds U α S) : Prop :=
  kind a = kind b ∧ ∀ o : Outcome D α S, Admits us b o → Admits us a o

theorem containsB_sound (us : UnitSys U D α) (hl : us.Lawful) (a b : Bounds U α S) (h : containsB us a b = true) :
    Includes us a b := by
  refine ⟨containsB_kind h, ?_⟩
  intro o ho
  cases a with
  | real a =>
    cases b with
    | real b =>
      cases o with
      | quantity d r =>
        obtain ⟨h0, h1, h2⟩ := (containsB_real hl a b).1 h
        obtain ⟨rfl, x, hx1, hx2, rfl⟩ := ho
        refine ⟨h0.symm, us.ofRoot a.units (us.toRoot b.units x), ?_, ?_, (hl.to_of _ _).symm⟩
        · rw [← toRoot_le_iff hl a.units, hl.to_of]
          exact le_trans h1 (hl.mono _ _ _ hx1)
        · rw [← toRoot_le_iff hl a.units, hl.to_of]
          exact le_trans (hl.mono _ _ _ hx2) h2
      | _ => exact absurd ho (by simp [Admits])
    | _ => cases h
  | int a =>
    cases b with
    | int b =>
      cases o with
      | integer n =>
        simp only [containsB, Bool.and_eq_true, decide_eq_true_eq, ge_iff_le] at h
        exact ⟨Int.le_trans h.1 ho.1, Int.le_trans ho.2 h.2⟩
      | _ => exact absurd ho (by simp [Admits])
    | _ => cases h
  | cat a =>
    cases b with
    | cat b =>
      cases o with
      | category n =>
        simp only [containsB, List.all_eq_true, decide_eq_true_eq] at h
        exact h _ ho
      | _ => exact absurd ho (by simp [Admits])
    | _ => cases h
  | comp a =>
    cases b with
    | comp b =>
      cases o with
      | component n =>
        simp only [containsB, List.all_eq_true, decide_eq_true_eq] at h
        exact h _ ho
      | _ => exact absurd ho (by simp [Admits])
    | _ => cases h
  | mol =>
    cases b with
    | mol => exact ho
    | _ => cases h

theorem containsB_complete (us : UnitSys U D α) (hl : us.Lawful) (a b : Bounds U α S) (hb : Valid b) (h : Includes us a b) :
    containsB us a b = true := by
  obtain ⟨hk, h⟩ := h
  by_cases hkr : kind a = .real
  · obtain ⟨a, rfl⟩ := kind_real hkr
    obtain ⟨b, rfl⟩ := kind_real (hk ▸ hkr)
    have hroot := (h (.quantity (us.root b.units) (us.toRoot b.units b.lower)) ⟨rfl, b.lower, le_refl _, hb, rfl⟩).1
    obtain ⟨r, hr, hi⟩ := C05_real_contains (S := S) (P := Unit) us hl a b hb
    rw [contains_bounds] at hr; injection hr with hr
    rw [hr]; exact hi.2 ⟨hroot.symm, h⟩
  · obtain ⟨r, hr, hi⟩ := C06_contains (P := Unit) us a b hkr hb
    rw [contains_bounds] at hr; injection hr with hr
    rw [hr]; exact hi.2 ⟨hk, h⟩

/-- the pair `[r, b]` as stored -/
def pairOf (r : Ref U α S) : Option (Bounds U α S) → Item U α S
  | none => .seq [.ref r, .none]
  | some b => .seq [.ref r, .bounds b]

/-- a well-formed entry: a pair of a template or link and bounds or None, the bounds within those of the template -/
def WellFormed (us : UnitSys U D α) (i : Item U α S) : Prop :=
  ∃ r b, i = pairOf r b ∧ ∀ t c, r = .tmpl t → b = some c → Includes us t.bounds c

/-- the accepted shapes and what they stand for: a template of the right class or a link alone, or a pair -/
def Stands (us : UnitSys U D α) (k : AKind) (i : Item U α S) (r : Ref U α S) (b : Option (Bounds U α S)) : Prop :=
  (b = none ∧ i = .atom (.ref r) ∧ ∀ t, r = .tmpl t → t.kind = k) ∨
  (i = pairOf r b ∧ ∀ t c, r = .tmpl t → b = some c → Includes us t.bounds c)

/-- all bounds mentioned are valid (C10) -/
def ItemValid : Item U α S → Prop
  | .atom _ => True
  | .seq l => ∀ b, Elt.bounds b ∈ l → Valid b

theorem homogenize_sound (us : UnitSys U D α) (hl : us.Lawful) (k : AKind) (i j : Item U α S) (hok : i.ok k = true)
    (h : homogenize us i = .ok j) : ∃ r b, Stands us k i r b ∧ j = pairOf r b := by
  unfold homogenize at h
  split at h
  · rename_i r
    injection h with h
    refine ⟨r, none, Or.inl ⟨rfl, rfl, ?_⟩, h.symm⟩
    rintro t rfl
    simpa [Item.ok] using hok
  · split at h
    · rename_i t b
      rw [contains_bounds] at h
      cases hc : containsB us t.bounds b with
      | false => simp [hc] at h
      | true =>
        simp only [hc, Except.ok.injEq] at h
        refine ⟨.tmpl t, some b, Or.inr ⟨rfl, ?_⟩, h.symm⟩
        rintro t' c ht hb
        injection ht with ht; injection hb with hb
        subst ht; subst hb
        exact containsB_sound us hl _ _ hc
    · injection h with h; exact ⟨_, none, Or.inr ⟨rfl, fun _ _ _ h => by cases h⟩, h.symm⟩
    · injection h with h; exact ⟨_, some _, Or.inr ⟨rfl, fun _ _ h => by cases h⟩, h.symm⟩
    · injection h with h; exact ⟨_, none, Or.inr ⟨rfl, fun _ _ h => by cases h⟩, h.symm⟩
    · cases h
  · cases h
  · cases h

theorem homogenize_complete (us : UnitSys U D α) (hl : us.Lawful) (k : AKind) (i : Item U α S) (hv : ItemValid i)
    (r : Ref U α S) (b : Option (Bounds U α S)) (h : Stands us k i r b) :
    i.ok k = true ∧ homogenize us i = .ok (pairOf r b) := by
  rcases h with ⟨rfl, rfl, ht⟩ | ⟨rfl, hin⟩
  · refine ⟨?_, rfl⟩
    cases r with
    | tmpl t => simpa [Item.ok] using ht t rfl
    | link => rfl
  · cases b with
    | none => refine ⟨rfl, ?_⟩; cases r <;> rfl
    | some c =>
      refine ⟨rfl, ?_⟩
      cases r with
      | link => rfl
      | tmpl t =>
        have hc := containsB_complete us hl t.bounds c (hv c (by simp)) (hin t c rfl rfl)
        simp [homogenize, pairOf, contains_bounds, hc]

theorem fire_cfg (us : UnitSys U D α) (k : AKind) (i : Item U α S) :
    VList.fire (cfg us k) () i = ((), homogenize us i) := by
  unfold VList.fire cfg
  cases h : homogenize us i <;> simp [Except.map, h]

theorem cfg_still (us : UnitSys U D α) (k : AKind) : VList.Still (cfg us k : VList.Cfg (Item U α S) Unit) () :=
  fun _ _ _ _ => rfl

theorem cfg_stores (us : UnitSys U D α) (hl : us.Lawful) (k : AKind) :
    VList.Stores (cfg us k : VList.Cfg (Item U α S) Unit) () (WellFormed us) := by
  intro a b w' hok h
  rw [fire_cfg] at h
  injection h with _ h
  obtain ⟨r, c, hs, rfl⟩ := homogenize_sound us hl k a b hok h
  refine ⟨r, c, rfl, ?_⟩
  rcases hs with ⟨rfl, -, -⟩ | ⟨-, h⟩
  · intro _ _ _ h; cases h
  · exact h

/-- C25. Whatever was handed to the setter, and whatever list operations (append, extend, insert, item assignment, deletion,
..., accepted or refused) followed, every entry is a pair of a template or link and bounds or None, and bounds given with a
template object lie within its bounds. -/
theorem C25_history (us : UnitSys U D α) (hl : us.Lawful) (k : AKind) (arg : SetArg U α S) (l : List (Item U α S))
    (h : setList us k arg = .ok l) (ops : List (VList.Op (Item U α S))) :
    ∀ i ∈ (VList.run (cfg us k) () l ops).2, WellFormed us i := by
  have key : ∀ a : VList.ListArg (Item U α S), (VList.validateList (cfg us k) () a).2 = .ok l → ∀ i ∈ l, WellFormed us i := by
    intro a ha
    have : VList.validateList (cfg us k) () a = ((), .ok l) := Prod.ext rfl ha
    exact (VList.validateList_inv (cfg_stores us hl k) (cfg_still us k) this).2
  have h0 : ∀ i ∈ l, WellFormed us i := by
    unfold setList at h
    split at h
    · exact key _ h
    · exact key _ h
    · split at h <;> exact key _ h
    · split at h <;> exact key _ h
    · split at h <;> exact key _ h
  clear h key
  induction ops generalizing l with
  | nil => exact h0
  | cons o ops ih => exact ih _ (VList.step_inv (cfg_stores us hl k) (cfg_still us k) l o h0).2

theorem fireAll_cfg (us : UnitSys U D α) (hl : us.Lawful) (k : AKind) (l : List (Item U α S)) (hv : ∀ i ∈ l, ItemValid i)
    (hok : ∀ i ∈ l, i.ok k = true) :
    ((∀ i ∈ l, ∃ r b, Stands us k i r b) ∧ ∃ l', VList.fireAll (cfg us k) () l = ((), .ok l') ∧
      l'.length = l.length ∧ ∀ p ∈ l.zip l', ∃ r b, Stands us k p.1 r b ∧ p.2 = pairOf r b) ∨
    ((∃ i ∈ l, ∀ r b, ¬ Stands us k i r b) ∧ ∃ e, VList.fireAll (cfg us k) () l = ((), .error e)) := by
  induction l with
  | nil => left; exact ⟨by simp, [], rfl, rfl, by simp⟩
  | cons a l ih =>
    have ih := ih (fun i hi => hv i (List.mem_cons_of_mem _ hi)) (fun i hi => hok i (List.mem_cons_of_mem _ hi))
    simp only [VList.fireAll, fire_cfg]
    cases hh : homogenize us a with
    | error e =>
      right
      refine ⟨⟨a, by simp, ?_⟩, e, rfl⟩
      intro r b hs
      have := (homogenize_complete us hl k a (hv a (by simp)) r b hs).2
      rw [hh] at this; cases this
    | ok j =>
      obtain ⟨r, b, hs, hj⟩ := homogenize_sound us hl k a j (hok a (by simp)) hh
      rcases ih with ⟨h1, l', h2, h3, h4⟩ | ⟨⟨i, hi, hn⟩, e, he⟩
      · left
        refine ⟨?_, j :: l', by simp [h2], by simp [h3], ?_⟩
        · intro i hi
          rcases List.mem_cons.mp hi with rfl | hi
          · exact ⟨r, b, hs⟩
          · exact h1 i hi
        · intro p hp
          simp only [List.zip_cons_cons, List.mem_cons] at hp
          rcases hp with rfl | hp
          · exact ⟨r, b, hs, hj⟩
          · exact h4 p hp
      · right
        exact ⟨⟨i, List.mem_cons_of_mem _ hi, hn⟩, e, by simp [he]⟩

/-- C25, decision. A list or tuple without bare bounds is accepted exactly when each element has an accepted shape; then each
entry is the pair its element stands for, in order. Missing from the full claim: one-shot iterators
(`C25_one_shot_counterexample`). -/
theorem C25_decides_partial (us : UnitSys U D α) (hl : us.Lawful) (k : AKind) (l : List (Item U α S))
    (hnb : ∀ i ∈ l, i.isBounds = false) (hv : ∀ i ∈ l, ItemValid i) :
    ((∀ i ∈ l, ∃ r b, Stands us k i r b) ∧ ∃ l', setList us k (.listOrTuple l) = .ok l' ∧
      l'.length = l.length ∧ ∀ p ∈ l.zip l', ∃ r b, Stands us k p.1 r b ∧ p.2 = pairOf r b) ∨
    ((∃ i ∈ l, ∀ r b, ¬ Stands us k i r b) ∧ ∃ e, setList us k (.listOrTuple l) = .error e) := by
  have hany : l.any Item.isBounds = false := by
    rw [List.any_eq_false]; intro i hi; simp [hnb i hi]
  simp only [setList, hany, Bool.false_eq_true, if_false, VList.validateList, VList.init, VList.Arg.first, VList.Arg.again]
  by_cases hok : ∀ i ∈ l, i.ok k = true
  · have hva : VList.validateAll (cfg us k) l = true := List.all_eq_true.mpr hok
    simp only [hva, if_true]
    rcases fireAll_cfg us hl k l hv hok with ⟨h1, l', h2, h3⟩ | ⟨h1, e, h2⟩
    · left; exact ⟨h1, l', by rw [h2], h3⟩
    · right; exact ⟨h1, e, by rw [h2]⟩
  · right
    simp only [Classical.not_forall] at hok
    obtain ⟨i, hi, hbad⟩ := hok
    have hva : VList.validateAll (cfg us k) l = false := by
      unfold VList.validateAll
      rw [List.all_eq_false]
      exact ⟨i, hi, hbad⟩
    refine ⟨⟨i, hi, fun r b hs => hbad (homogenize_complete us hl k i (hv i hi) r b hs).1⟩, .typeError, by simp [hva]⟩

/-- C25: a bare `(template, bounds)` pair is taken as one entry. -/
theorem C25_bare_pair (us : UnitSys U D α) (hl : us.Lawful) (k : AKind) (t : ATmpl U α S) (b : Bounds U α S) (hb : Valid b) :
    (Includes us t.bounds b →
      setList us k (.listOrTuple [.atom (.ref (.tmpl t)), .atom (.bounds b)]) = .ok [pairOf (.tmpl t) (some b)]) ∧
    (¬ Includes us t.bounds b →
      setList us k (.listOrTuple [.atom (.ref (.tmpl t)), .atom (.bounds b)]) = .error .valueError) := by
  have e : setList us k (.listOrTuple [.atom (.ref (.tmpl t)), .atom (.bounds b)])
      = if containsB us t.bounds b then .ok [pairOf (.tmpl t) (some b)] else .error .valueError := by
    have hf := fire_cfg us k (.seq [.ref (.tmpl t), .bounds b])
    have e1 : setList us k (.listOrTuple [.atom (.ref (.tmpl t)), .atom (.bounds b)])
        = (VList.fireAll (cfg us k) () [.seq [.ref (.tmpl t), .bounds b]]).2 := rfl
    rw [e1]
    simp only [VList.fireAll, hf]
    cases hc : containsB us t.bounds b <;> simp [homogenize, contains_bounds, hc, pairOf]
  rw [e]
  constructor
  · intro h; rw [if_pos (containsB_complete us hl _ _ hb h)]
  · intro h; rw [if_neg (fun hc => h (containsB_sound us hl _ _ hc))]

/-- C25: None gives an empty list; a single template or link one entry; any other single object is refused. -/
theorem C25_single (us : UnitSys U D α) (k : AKind) :
    setList us k (.none : SetArg U α S) = .ok [] ∧
    (∀ s i, setList us k (.single (.ref (.link s i)) : SetArg U α S) = .ok [pairOf (.link s i) none]) ∧
    (∀ t : ATmpl U α S, t.kind = k → setList us k (.single (.ref (.tmpl t))) = .ok [pairOf (.tmpl t) none]) ∧
    (∀ t : ATmpl U α S, t.kind ≠ k → setList us k (.single (.ref (.tmpl t))) = .error .typeError) ∧
    setList us k (.single .other : SetArg U α S) = .error .typeError ∧
    (∀ b : Bounds U α S, setList us k (.single (.bounds b)) = .error .typeError) := by
  refine ⟨rfl, fun _ _ => rfl, fun t h => ?_, fun t h => ?_, rfl, fun _ => rfl⟩
  · simp [setList, VList.validateList, VList.init, VList.Arg.first, VList.Arg.again, VList.validateAll, cfg, Item.ok, h,
      VList.fireAll, VList.fire, homogenize, Except.map, pairOf]
  · simp [setList, VList.validateList, VList.init, VList.Arg.first, VList.validateAll, cfg, Item.ok, h]

/-- C25 read literally is false (1): a one-shot iterator is used up by the test for bare bounds, so that whatever it yields,
of whatever type, is accepted and dropped. -/
theorem C25_one_shot_counterexample (us : UnitSys U D α) (k : AKind) (l : List (Item U α S))
    (h : ∀ i ∈ l, i.isBounds = false) : setList us k (.oneShot l) = .ok [] := by
  have hany : l.any Item.isBounds = false := by
    rw [List.any_eq_false]; intro i hi; simp [h i hi]
  simp [setList, hany, VList.validateList, VList.init, VList.Arg.first, VList.Arg.again, VList.validateAll, VList.fireAll]

/-- C25 read literally is false (2): a template of the wrong attribute class is refused on its own but accepted inside a pair. -/
theorem C25_wrong_class_counterexample (us : UnitSys U D α) (t : ATmpl U α S) (h : t.kind = .property) :
    setList us .condition (.single (.ref (.tmpl t))) = .error .typeError ∧
    setList us .condition (.listOrTuple [.seq [.ref (.tmpl t), .none]]) = .ok [pairOf (.tmpl t) none] := by
  refine ⟨(C25_single us .condition).2.2.2.1 t (by simp [h]), ?_⟩
  simp [setList, Item.isBounds, VList.validateList, VList.init, VList.Arg.first, VList.Arg.again, VList.validateAll, cfg, Item.ok,
    VList.fireAll, VList.fire, homogenize, Except.map, pairOf]

/-! ## C23 -/

/-- the entry is about the attribute: same template, or, for an attribute without template, a template of the same name -/
def About (eqv : Ref U α S → Ref U α S → Bool) (a : Attr U α S P) (e : Entry U α S) : Prop :=
  match a.template with
  | some t => eqv t e.1 = true
  | none => ∃ t, e.1 = .tmpl t ∧ a.name = t.name

/-- the bounds an entry imposes on attributes of class `k`: its own, else those of the listed template; none for a link -/
def Imposes (k : AKind) (e : Entry U α S) (b : Bounds U α S) : Prop :=
  e.2 = some b ∨ (e.2 = none ∧ ∃ t, e.1 = .tmpl t ∧ t.kind = k ∧ b = t.bounds)

/-- the attribute satisfies what the first entry about it imposes -/
def Satisfies (us : UnitSys U D α) (eqv : Ref U α S → Ref U α S → Bool) (k : AKind) (entries : List (Entry U α S))
    (a : Attr U α S P) : Prop :=
  ∀ pre e post b, entries = pre ++ e :: post → (∀ x ∈ pre, ¬ About eqv a x) → About eqv a e → Imposes k e b →
    ∃ v, a.value = some v ∧ Complete v ∧ Fits us b v

theorem findByName_spec (name : S) (pre : List (Entry U α S)) (t : ATmpl U α S) (b : Option (Bounds U α S))
    (post : List (Entry U α S)) (hpre : ∀ x ∈ pre, ¬ ∃ t, x.1 = .tmpl t ∧ name = t.name) (ht : name = t.name) :
    (∃ e, findByName name (pre ++ (.tmpl t, b) :: post) = .error e) ∨
      findByName name (pre ++ (.tmpl t, b) :: post) = .ok (some (.tmpl t, b)) := by
  induction pre with
  | nil => right; simp [findByName, ht]
  | cons x pre ih =>
    obtain ⟨r, c⟩ := x
    cases r with
    | link s i => left; exact ⟨_, rfl⟩
    | tmpl u =>
      have hne : name ≠ u.name := fun h => hpre (.tmpl u, c) (by simp) ⟨u, rfl, h⟩
      simp only [List.cons_append, findByName, hne, if_false]
      exact ih (fun y hy => hpre y (List.mem_cons_of_mem _ hy))

theorem valueArg_contains (us : UnitSys U D α) (hl : us.Lawful) (b : Bounds U α S) (v : Option (Value U α S P))
    (h : contains us b (valueArg v) = .ok true) : ∃ w, v = some w ∧ Complete w ∧ Fits us b w := by
  cases v with
  | none => simp [valueArg, (C11_dispatch (P := P) us b).1] at h
  | some w =>
    refine ⟨w, rfl, ?_⟩
    simp only [valueArg] at h
    obtain ⟨h1, h2⟩ := Attr.contains_value us hl b w
    by_cases hc : Complete w
    · obtain ⟨r, hr, hi⟩ := h1 hc
      rw [hr] at h; injection h with h
      exact ⟨hc, hi.1 h⟩
    · obtain ⟨e, he⟩ := h2 hc
      rw [he] at h; cases h

theorem validate_sound (us : UnitSys U D α) (hl : us.Lawful) (eqv : Ref U α S → Ref U α S → Bool) (k : AKind)
    (entries : List (Entry U α S)) (a : Attr U α S P) (h : validate us eqv k entries a = .ok true) :
    Satisfies us eqv k entries a := by
  intro pre e post b hsplit hpre he hb
  have hfin : ∀ (h : (match (Except.ok (some e) : Except PyErr (Option (Entry U α S))) with
      | .error e => Except.error e
      | .ok none => Except.ok true
      | .ok (some (_, some b)) => contains us b (valueArg a.value)
      | .ok (some (.tmpl t, none)) => if t.kind = k then contains us t.bounds (valueArg a.value) else Except.ok true
      | .ok (some (.link .., none)) => Except.ok true) = Except.ok true), ∃ v, a.value = some v ∧ Complete v ∧ Fits us b v := by
    intro h
    obtain ⟨r, c⟩ := e
    rcases hb with hb | ⟨hb, t, ht, htk, rfl⟩
    · simp only at hb
      subst hb
      exact valueArg_contains us hl b _ h
    · simp only at hb ht
      subst hb; subst ht
      simp only [htk, if_true] at h
      exact valueArg_contains us hl _ _ h
  unfold validate at h
  cases ht : a.template with
  | some t =>
    simp only [About, ht] at hpre he
    have hf : entries.find? (fun x => eqv t x.1) = some e := by
      rw [hsplit, List.find?_append, List.find?_eq_none.mpr hpre]
      simp [he]
    simp only [ht, hf] at h
    exact hfin h
  | none =>
    simp only [About, ht] at hpre he
    obtain ⟨t, het, hn⟩ := he
    obtain ⟨r, c⟩ := e
    simp only at het
    subst het
    simp only [ht] at h
    rcases findByName_spec a.name pre t c post hpre hn with ⟨err, hf⟩ | hf
    · rw [← hsplit] at hf; rw [hf] at h; cases h
    · rw [← hsplit] at hf; rw [hf] at h; exact hfin h

theorem attr_fire (us : UnitSys U D α) (eqv : Ref U α S → Ref U α S → Bool) (k : AKind) (w : World U α S)
    (a : Option (Attr U α S P)) : (VList.fire (attrCfg us eqv k) w a) =
      match a with
      | none => (w, .ok none)
      | some a => match templateCheck us eqv k w a with
        | (w', .error e) => (w', .error e)
        | (w', .ok _) => (w', .ok (some a)) := by
  cases a with
  | none => rfl
  | some a =>
    simp only [VList.fire, attrCfg]
    generalize templateCheck us eqv k w a = r
    obtain ⟨w', r⟩ := r
    cases r <;> rfl

theorem attr_ok (us : UnitSys U D α) (eqv : Ref U α S → Ref U α S → Bool) (k : AKind) (a : Attr U α S P) :
    (attrCfg us eqv k).ok (some a) = true := rfl

theorem check_still (us : UnitSys U D α) (eqv : Ref U α S → Ref U α S → Bool) (k : AKind) (w : World U α S)
    (hw : w.level = .fatal) (a : Attr U α S P) : (templateCheck us eqv k w a).1 = w := by
  unfold templateCheck
  simp only [hw, reduceCtorEq, if_false]
  split
  · split <;> rfl
  · rfl

theorem attr_still (us : UnitSys U D α) (eqv : Ref U α S → Ref U α S → Bool) (k : AKind) (w : World U α S)
    (hw : w.level = .fatal) : VList.Still (attrCfg (P := P) us eqv k) w := by
  intro a w' r h
  rw [attr_fire] at h
  cases a with
  | none => injection h with h1 _; exact h1.symm
  | some a =>
    have := check_still us eqv k w hw a
    simp only at h
    generalize templateCheck us eqv k w a = q at h this
    obtain ⟨q1, q2⟩ := q
    simp only at this
    subst this
    cases q2 <;> (injection h with h1 _; exact h1.symm)

/-- every attribute of the list satisfies the template -/
def AllSatisfy (us : UnitSys U D α) (eqv : Ref U α S → Ref U α S → Bool) (k : AKind) (s : Obj U α S P) : Prop :=
  ∀ entries, s.template = .obj entries → ∀ a, some a ∈ s.attrs → Satisfies us eqv k entries a

theorem attr_stores (us : UnitSys U D α) (hl : us.Lawful) (eqv : Ref U α S → Ref U α S → Bool) (k : AKind) (w : World U α S)
    (hw : w.level = .fatal) :
    VList.Stores (attrCfg (P := P) us eqv k) w
      (fun x => ∀ entries, w.template = .obj entries → ∀ a, x = some a → Satisfies us eqv k entries a) := by
  intro x y w' hok h entries ht a hy
  rw [attr_fire] at h
  cases x with
  | none => cases hok
  | some x =>
    simp only at h
    unfold templateCheck at h
    simp only [hw, reduceCtorEq, if_false, ht] at h
    cases hv : validate us eqv k entries x with
    | error e => simp [hv] at h
    | ok r =>
      cases r with
      | false => simp [hv] at h
      | true =>
        simp only [hv, Prod.mk.injEq, Except.ok.injEq] at h
        have : x = a := by rw [hy] at h; exact Option.some.inj h.2
        subst this
        exact validate_sound us hl eqv k entries x hv

/-- C23 at FATAL. From the moment an object has its template and no attributes yet (the order in which every constructor
proceeds), whatever attribute assignments and list operations follow, accepted or refused, every attribute in the list
satisfies the bounds imposed by the first entry of the template about it. Missing from the full claim: reassigning the template
(`C23_template_counterexample`), and further entries about the same attribute (`C23_duplicate_counterexample`). -/
theorem C23_fatal_partial (us : UnitSys U D α) (hl : us.Lawful) (eqv : Ref U α S → Ref U α S → Bool) (k : AKind)
    (t : OTmpl U α S) (ops : List (Op U α S P)) (hops : ∀ o ∈ ops, ∀ t', o ≠ .setTemplate t') :
    AllSatisfy us eqv k (runFatal us eqv k { template := t, attrs := [] } ops) := by
  have key : ∀ (s : Obj U α S P), AllSatisfy us eqv k s → AllSatisfy us eqv k (runFatal us eqv k s ops) := by
    induction ops with
    | nil => intro s h; exact h
    | cons o ops ih =>
      intro s h
      refine ih (fun o' ho' => hops o' (List.mem_cons_of_mem _ ho')) _ ?_
      cases o with
      | setTemplate t' => exact absurd rfl (hops _ (by simp) t')
      | setAttrs arg =>
        simp only [step]
        split
        · rename_i w l hv
          intro entries he a ha
          exact (VList.validateList_inv (attr_stores us hl eqv k { template := s.template, level := .fatal, warnings := 0 } rfl)
            (attr_still us eqv k _ rfl) hv).2 _ ha entries he a rfl
        · exact h
      | listOp o =>
        intro entries he a ha
        have h' : ∀ x ∈ s.attrs, ∀ entries, s.template = .obj entries → ∀ a, x = some a → Satisfies us eqv k entries a := by
          rintro x hx entries he a rfl
          exact h entries he a hx
        exact (VList.step_inv (attr_stores us hl eqv k { template := s.template, level := .fatal, warnings := 0 } rfl)
          (attr_still us eqv k _ rfl) s.attrs o h').2 _ ha entries he a rfl
  exact key _ (fun _ _ a ha => by cases ha)

/-- C23: attributes about which the template has no entry are not restricted. (An attribute that has a template, or a template
list without links; otherwise see `C23_link_counterexample`.) -/
theorem C23_unlisted_partial (us : UnitSys U D α) (eqv : Ref U α S → Ref U α S → Bool) (k : AKind) (entries : List (Entry U α S))
    (l : List (Option (Attr U α S P))) (a : Attr U α S P) (hno : ∀ e ∈ entries, ¬ About eqv a e)
    (hl : a.template ≠ none ∨ ∀ e ∈ entries, ∃ t, e.1 = .tmpl t) :
    step us eqv k .fatal { template := .obj entries, attrs := l } (.listOp (.append (some a)))
      = ({ template := .obj entries, attrs := l ++ [some a] }, 0, .ok ()) := by
  have hval : validate us eqv k entries a = .ok true := by
    unfold validate
    cases ht : a.template with
    | some t =>
      have : entries.find? (fun x => eqv t x.1) = none := by
        rw [List.find?_eq_none]
        intro x hx
        have := hno x hx
        simpa [About, ht] using this
      simp [this]
    | none =>
      have hlt : ∀ e ∈ entries, ∃ t, e.1 = .tmpl t := by
        rcases hl with h | h
        · exact absurd ht h
        · exact h
      have : findByName a.name entries = .ok none := by
        clear hl
        induction entries with
        | nil => rfl
        | cons e es ih =>
          obtain ⟨r, b⟩ := e
          obtain ⟨t, ht'⟩ := hlt (r, b) (by simp)
          simp only at ht'
          subst ht'
          have hne : a.name ≠ t.name := by
            intro h
            exact hno (.tmpl t, b) (by simp) (by simp only [About, ht]; exact ⟨t, rfl, h⟩)
          simp only [findByName, hne, if_false]
          exact ih (fun e he => hno e (List.mem_cons_of_mem _ he)) (fun e he => hlt e (List.mem_cons_of_mem _ he))
      simp [this]
  simp [step, VList.step, VList.append, attr_fire, attr_ok, templateCheck, hval]

/-- C23: an object whose template is absent or a link restricts nothing. -/
theorem C23_no_template (us : UnitSys U D α) (eqv : Ref U α S → Ref U α S → Bool) (k : AKind) (level : Level)
    (t : OTmpl U α S) (ht : t = .none ∨ t = .link) (l : List (Option (Attr U α S P))) (a : Attr U α S P) :
    step us eqv k level { template := t, attrs := l } (.listOp (.append (some a)))
      = ({ template := t, attrs := l ++ [some a] }, 0, .ok ()) := by
  rcases ht with rfl | rfl <;>
    (cases level <;> simp [step, VList.step, VList.append, attr_fire, attr_ok, templateCheck])

/-- C23 at FATAL, for an attribute that has a template: it is accepted exactly when it satisfies the object's template. -/
theorem C23_fatal_decides (us : UnitSys U D α) (hl : us.Lawful) (eqv : Ref U α S → Ref U α S → Bool) (k : AKind)
    (entries : List (Entry U α S)) (l : List (Option (Attr U α S P))) (a : Attr U α S P) (ht : a.template ≠ none) :
    (Satisfies us eqv k entries a →
      step us eqv k .fatal { template := .obj entries, attrs := l } (.listOp (.append (some a)))
        = ({ template := .obj entries, attrs := l ++ [some a] }, 0, .ok ())) ∧
    (¬ Satisfies us eqv k entries a →
      ∃ e, step us eqv k .fatal { template := .obj entries, attrs := l } (.listOp (.append (some a)))
        = ({ template := .obj entries, attrs := l }, 0, .error e)) := by
  constructor
  · intro h
    have hval : validate us eqv k entries a = .ok true := by
      obtain ⟨t, ht⟩ := Option.ne_none_iff_exists'.mp ht
      have hcont : ∀ b, (∃ v, a.value = some v ∧ Complete v ∧ Fits us b v) → contains us b (valueArg a.value) = .ok true := by
        rintro b ⟨v, hv, hc, hf⟩
        rw [hv]
        obtain ⟨r, hr, hi⟩ := (Attr.contains_value us hl b v).1 hc
        rw [← hi.2 hf]; exact hr
      unfold validate
      simp only [ht]
      cases hf : entries.find? (fun x => eqv t x.1) with
      | none => rfl
      | some e =>
        obtain ⟨he, pre, post, hs, hp⟩ := List.find?_eq_some_iff_append.mp hf
        have h := h pre e post
        have hp' : ∀ x ∈ pre, ¬ About eqv a x := by
          intro x hx
          simpa [About, ht] using hp x hx
        have he' : About eqv a e := by simpa [About, ht] using he
        obtain ⟨r, c⟩ := e
        cases c with
        | some b => exact hcont b (h b hs hp' he' (Or.inl rfl))
        | none =>
          cases r with
          | link => rfl
          | tmpl u =>
            by_cases hk : u.kind = k
            · simp only [hk, if_true]
              exact hcont _ (h u.bounds hs hp' he' (Or.inr ⟨rfl, u, rfl, hk, rfl⟩))
            · simp [hk]
    simp [step, VList.step, VList.append, attr_fire, attr_ok, templateCheck, hval]
  · intro h
    cases hv : validate us eqv k entries a with
    | error e => exact ⟨e, by simp [step, VList.step, VList.append, attr_fire, attr_ok, templateCheck, hv]⟩
    | ok r =>
      cases r with
      | true => exact absurd (validate_sound us hl eqv k entries a hv) h
      | false => exact ⟨.valueError, by simp [step, VList.step, VList.append, attr_fire, attr_ok, templateCheck, hv]⟩

/-- C23: an operation that raises, at whatever level, leaves the object as it was. -/
theorem C23_refused (us : UnitSys U D α) (eqv : Ref U α S → Ref U α S → Bool) (k : AKind) (level : Level)
    (s : Obj U α S P) (o : Op U α S P) (e : PyErr) (h : (step us eqv k level s o).2.2 = .error e) :
    (step us eqv k level s o).1 = s := by
  cases o with
  | setTemplate t => cases h
  | setAttrs a =>
    simp only [step] at h ⊢
    generalize VList.validateList _ _ a = r at h ⊢
    obtain ⟨w, r⟩ := r
    cases r with
    | ok l => cases h
    | error e => rfl
  | listOp o =>
    simp only [step] at h ⊢
    rw [VList.step_refused _ _ _ _ _ h]

section witness

/-- one unit, integers as magnitudes -/
def oneUnit : UnitSys Unit Unit Int := { root := fun _ => (), toRoot := fun _ x => x, ofRoot := fun _ x => x }

theorem oneUnit_lawful : oneUnit.Lawful := ⟨fun _ _ => rfl, fun _ _ => rfl, fun _ _ _ h => h⟩

def sameRef : Ref Unit Int Nat → Ref Unit Int Nat → Bool
  | .tmpl a, .tmpl b => a.id == b.id
  | .link s i, .link s' i' => s == s' && i == i'
  | _, _ => false

def temp : ATmpl Unit Int Nat := { id := 0, kind := .condition, name := 7, bounds := .real ⟨0, 100, ()⟩ }
def hot : Attr Unit Int Nat Unit := { template := some (.tmpl temp), name := 7, value := some (.nominalReal (some 50) ()) }
def narrow : List (Entry Unit Int Nat) := [(.tmpl temp, some (.real ⟨0, 10, ()⟩))]
def twice : List (Entry Unit Int Nat) := [(.tmpl temp, some (.real ⟨0, 60, ()⟩)), (.tmpl temp, some (.real ⟨0, 10, ()⟩))]

theorem hot_not_narrow : ¬ Satisfies oneUnit sameRef .condition narrow hot := by
  intro h
  obtain ⟨v, hv, -, -, hf⟩ := h [] _ [] (.real ⟨0, 10, ()⟩) rfl (by simp) (show sameRef _ _ = true by decide) (Or.inl rfl)
  injection hv with hv
  subst hv
  obtain ⟨-, x, -, hx, hr⟩ := hf (.quantity () 50) ⟨rfl, rfl⟩
  change (x : Int) ≤ 10 at hx
  change (50 : Int) = x at hr
  omega

/-- C23 read literally is false (1): assigning the template does not look at the attributes already there. -/
theorem C23_template_counterexample :
    ¬ AllSatisfy oneUnit sameRef .condition
      (runFatal oneUnit sameRef .condition { template := .none, attrs := [] } [.listOp (.append (some hot)), .setTemplate (.obj narrow)]) := by
  intro h
  exact hot_not_narrow (h narrow rfl hot (List.mem_singleton.mpr rfl))

/-- C23 read literally is false (2): a second entry about the same attribute template is not looked at. The attribute is
accepted at FATAL although one of the entries listing its template excludes it. -/
theorem C23_duplicate_counterexample :
    (step oneUnit sameRef .condition .fatal { template := .obj twice, attrs := [] } (.listOp (.append (some hot)))).2.2 = .ok () ∧
    ∃ e ∈ twice, About sameRef hot e ∧ ∃ b, Imposes .condition e b ∧ ∀ v, hot.value = some v → ¬ Fits oneUnit b v := by
  refine ⟨by decide +kernel, (.tmpl temp, some (.real ⟨0, 10, ()⟩)), by simp [twice], (show sameRef _ _ = true by decide), _, Or.inl rfl, ?_⟩
  rintro v hv ⟨-, hf⟩
  injection hv with hv
  subst hv
  obtain ⟨-, x, -, hx, hr⟩ := hf (.quantity () 50) ⟨rfl, rfl⟩
  change (x : Int) ≤ 10 at hx
  change (50 : Int) = x at hr
  omega

/-- C23 read literally is false (3): an attribute without template raises AttributeError if a link is listed before an entry
of its name, even at WARNING. -/
theorem C23_link_counterexample (l : Level) (hl : l ≠ .ignore) :
    (step oneUnit sameRef .condition l { template := .obj [(.link 0 0, none)], attrs := [] }
      (.listOp (.append (some ({ template := none, name := 1, value := none } : Attr Unit Int Nat Unit))))).2.2
      = .error .attributeError := by
  cases l with
  | ignore => exact absurd rfl hl
  | warning => decide +kernel
  | fatal => decide +kernel

/-- the hypotheses of `C23_fatal_partial` can be met with a non-empty result -/
example : (runFatal oneUnit sameRef .condition { template := .obj [(.tmpl temp, none)], attrs := [] }
    [.setAttrs (.single (some hot)), .listOp (.append (some hot))]).attrs.length = 2 := by decide +kernel

example : ∃ e : PyErr, (step oneUnit sameRef .condition .fatal { template := .obj narrow, attrs := [] }
    (.listOp (.append (some hot)))).2.2 = .error e := ⟨.valueError, by decide +kernel⟩

/-- and those of `C23_unlisted_partial`: an attribute with another template -/
example : ∀ e ∈ narrow, ¬ About sameRef { hot with template := some (.link 3 3) } e := by
  intro e he; simp only [narrow, List.mem_singleton] at he; subst he
  change ¬ (sameRef _ _ = true)
  decide

/-- the hypotheses of the C25 theorems can be met -/
example : (∀ i ∈ [Item.atom (.ref (.tmpl temp)), .seq [.ref (.tmpl temp), .bounds (.real ⟨0, 10, ()⟩)]],
    i.isBounds = false ∧ ItemValid i) := by
  intro i hi
  simp only [List.mem_cons, List.not_mem_nil, or_false] at hi
  rcases hi with rfl | rfl
  · exact ⟨rfl, trivial⟩
  · refine ⟨rfl, ?_⟩
    intro b hb
    simp only [List.mem_cons, List.not_mem_nil, or_false, reduceCtorEq, false_or, Elt.bounds.injEq] at hb
    subst hb
    change (0 : Int) ≤ 10
    decide

example : ∃ l, setList oneUnit .condition (.listOrTuple [.atom (.ref (.tmpl temp)), .atom (.bounds (.real ⟨0, 10, ()⟩))]) = .ok l ∧
    l.length = 1 := ⟨_, rfl, rfl⟩

end witness

end Verif.Template
