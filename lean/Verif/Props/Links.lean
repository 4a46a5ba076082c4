import Verif.Model.Heap
/-!
# C26-C30: links between data objects
-/
set_option linter.unusedSimpArgs false
set_option linter.unusedSectionVars false
set_option linter.unusedVariables false

namespace Verif.Heap
open Verif.Py
variable {L N : Type}

/-! ## Lemmas on the heap -/

@[simp] theorem upd_next (h : Heap L N) (o f) : (h.upd o f).next = h.next := rfl
theorem upd_obj (h : Heap L N) (o f i) : (h.upd o f).obj i = if i = o then f (h.obj i) else h.obj i := rfl
@[simp] theorem upd_same (h : Heap L N) (o f) : (h.upd o f).obj o = f (h.obj o) := by simp [upd_obj]
theorem upd_other (h : Heap L N) {o i : Nat} (f) (hi : i ≠ o) : (h.upd o f).obj i = h.obj i := by simp [upd_obj, hi]

theorem isA_iff (h : Heap L N) (o c) : h.isA o c = true ↔ o < h.next ∧ (h.obj o).cls = c := by
  simp [Heap.isA]

/-- nothing that `isinstance` sees has changed -/
def Same (h h' : Heap L N) : Prop := h'.next = h.next ∧ ∀ i, (h'.obj i).cls = (h.obj i).cls

theorem Same.refl (h : Heap L N) : Same h h := ⟨rfl, fun _ => rfl⟩
theorem Same.trans {h₁ h₂ h₃ : Heap L N} (a : Same h₁ h₂) (b : Same h₂ h₃) : Same h₁ h₃ :=
  ⟨b.1.trans a.1, fun i => (b.2 i).trans (a.2 i)⟩
theorem Same.upd {h : Heap L N} {o f} (hf : ∀ x : Obj L N, (f x).cls = x.cls) : Same h (h.upd o f) := by
  refine ⟨rfl, fun i => ?_⟩
  rw [upd_obj]; split
  · exact hf _
  · rfl
theorem Same.isA {h h' : Heap L N} (s : Same h h') (o c) : h'.isA o c = h.isA o c := by
  simp [Heap.isA, s.1, s.2]
theorem Same.accept {h h' : Heap L N} (s : Same h h') (c a) : accept h' c a = accept h c a := by
  cases a <;> simp [Verif.Heap.accept, s.isA]

theorem same_storeSpec (h : Heap L N) (o) : Same h (storeSpec h o) := by
  unfold storeSpec
  repeat' split
  all_goals first | exact Same.refl _ | exact Same.upd (by intro _; rfl)

theorem same_setSpec (h : Heap L N) (o a) : Same h (setSpec h o a).1 := by
  unfold setSpec
  repeat' split
  all_goals first | exact Same.refl _ | exact same_storeSpec h o | exact (same_storeSpec h o).trans (Same.upd (by intro _; rfl))

theorem same_setTemplate (h : Heap L N) (o a) : Same h (setTemplate h o a).1 := by
  unfold setTemplate
  repeat' split
  all_goals first | exact Same.refl _ | exact Same.upd (by intro _; rfl)

theorem same_setMaterial (h : Heap L N) (o a) : Same h (setMaterial h o a).1 := by
  unfold setMaterial
  repeat' split
  all_goals first | exact Same.refl _ | exact Same.upd (by intro _; rfl)

theorem same_unlinkOwner {eqv : Heap L N → Nat → Nat → Bool} {h h' : Heap L N} {o c} (e : unlinkOwner eqv h o c = some h') :
    Same h h' := by
  unfold unlinkOwner at e
  split at e
  · split at e
    · simp only [Option.map_eq_some_iff] at e
      obtain ⟨l, _, rfl⟩ := e
      exact Same.upd (by intro _; rfl)
    · cases e; exact Same.refl _
  · cases e; exact Same.refl _

theorem same_linkOwner (h : Heap L N) (o r) : Same h (linkOwner h o r) := by
  unfold linkOwner
  split
  · exact (Same.upd (by intro _; rfl)).trans (Same.upd (by intro _; rfl))
  · exact Same.upd (by intro _; rfl)

theorem same_setOwner (eqv : Heap L N → Nat → Nat → Bool) (h : Heap L N) (o a) : Same h (setOwner eqv h o a).1 := by
  unfold setOwner
  split
  · exact Same.refl _
  · split
    · exact Same.refl _
    · rename_i h1 e
      split
      · exact same_unlinkOwner e
      · exact (same_unlinkOwner e).trans (same_linkOwner _ _ _)

theorem same_unlinkProcess (h : Heap L N) (o c) : Same h (unlinkProcess h o c) := by
  unfold unlinkProcess
  repeat' split
  all_goals first | exact Same.refl _ | exact Same.upd (by intro _; rfl)

theorem same_linkProcess (h : Heap L N) (o r) : Same h (linkProcess h o r) := by
  unfold linkProcess
  split
  · exact (Same.upd (by intro _; rfl)).trans (Same.upd (by intro _; rfl))
  · exact Same.upd (by intro _; rfl)

theorem same_setProcess (h : Heap L N) (o a) : Same h (setProcess h o a).1 := by
  unfold setProcess
  split
  · exact Same.refl _
  · split
    · exact same_unlinkProcess _ _ _
    · exact (same_unlinkProcess _ _ _).trans (same_linkProcess _ _ _)

theorem same_setName (h : Heap L N) (o n) : Same h (setName h o n).1 := by
  unfold setName
  split
  · exact Same.refl _
  · exact Same.upd (by intro _; rfl)

theorem same_setLabels (h : Heap L N) (o l) : Same h (setLabels h o l).1 := by
  unfold setLabels
  split
  · exact Same.upd (by intro _; rfl)
  · exact Same.refl _

theorem same_finish (h : Heap L N) (o c a) : Same h (finish h o c a).1 := by
  unfold finish
  split
  · exact Same.refl _
  · split
    · exact Same.upd (by intro _; rfl)
    · exact Same.refl _

/-- if the first step keeps `I` and the second does, so do both -/
theorem andThen_inv {I : Heap L N → Prop} {r : Ret L N} {f} (h1 : I r.1) (h2 : r.2 = .ok () → I (f r.1).1) : I (andThen r f).1 := by
  obtain ⟨h, e⟩ := r
  cases e with
  | ok u => exact h2 rfl
  | error e => exact h1

/-- an invariant of a history: it holds of the empty heap, of a new object, and each setter keeps it. `G` is what the calls of the
history are supposed to satisfy. -/
theorem construct_inv (eqv : Heap L N → Nat → Nat → Bool) {I : Heap L N → Prop} {h : Heap L N} {c : Cls} {a : CtorArgs L N}
    (h0 : I (h.alloc (fresh c a)))
    (hspec : ∀ h' , Same (h.alloc (fresh c a)) h' → I h' → I (setSpec h' h.next a.spec).1)
    (htemp : ∀ h', Same (h.alloc (fresh c a)) h' → I h' → I (setTemplate h' h.next a.template).1)
    (hmat : ∀ h', Same (h.alloc (fresh c a)) h' → I h' → I (setMaterial h' h.next a.material).1)
    (hown : ∀ h', Same (h.alloc (fresh c a)) h' → I h' → I (setOwner eqv h' h.next a.owner).1)
    (hproc : ∀ h', Same (h.alloc (fresh c a)) h' → I h' → I (setProcess h' h.next a.process).1)
    (hfin : ∀ h', Same (h.alloc (fresh c a)) h' → I h' → I (finish h' h.next c a).1) :
    I (construct eqv h c a).1 := by
  unfold construct
  have s1 := same_setSpec (h.alloc (fresh c a)) h.next a.spec
  have i1 := hspec _ (Same.refl _) h0
  refine andThen_inv i1 (fun _ => ?_)
  generalize (setSpec (h.alloc (fresh c a)) h.next a.spec).1 = h1 at s1 i1 ⊢
  have s2 : Same (h.alloc (fresh c a)) (if c = .ingredientSpec then ((h1, .ok ()) : Ret L N) else setTemplate h1 h.next a.template).1 := by
    split
    · exact s1
    · exact s1.trans (same_setTemplate _ _ _)
  have i2 : I (if c = .ingredientSpec then ((h1, .ok ()) : Ret L N) else setTemplate h1 h.next a.template).1 := by
    split
    · exact i1
    · exact htemp _ s1 i1
  refine andThen_inv i2 (fun _ => ?_)
  generalize (if c = .ingredientSpec then ((h1, .ok ()) : Ret L N) else setTemplate h1 h.next a.template).1 = h2 at s2 i2 ⊢
  have s3 := s2.trans (same_setMaterial h2 h.next a.material)
  have i3 := hmat _ s2 i2
  refine andThen_inv i3 (fun _ => ?_)
  generalize (setMaterial h2 h.next a.material).1 = h3 at s3 i3 ⊢
  have s4 := s3.trans (same_setOwner eqv h3 h.next a.owner)
  have i4 := hown _ s3 i3
  refine andThen_inv i4 (fun _ => ?_)
  generalize (setOwner eqv h3 h.next a.owner).1 = h4 at s4 i4 ⊢
  have s5 := s4.trans (same_setProcess h4 h.next a.process)
  have i5 := hproc _ s4 i4
  refine andThen_inv i5 (fun _ => ?_)
  exact hfin _ s5 i5

/-! ## C29: type safety -/

/-- the invariant behind C29, in terms of the model's tables -/
structure Typed (h : Heap L N) : Prop where
  junk : ∀ o, h.next ≤ o → (h.obj o).owner = .none ∧ (h.obj o).process = .none ∧ (h.obj o).children = [] ∧ (h.obj o).output = none
    ∧ (h.obj o).spec = .none
  spec : ∀ o p, (h.obj o).spec = .obj p → ∃ c, specType (h.obj o).cls = some c ∧ h.isA p c = true
  template : ∀ o p, (h.obj o).template = .obj p → ∃ c, templateType (h.obj o).cls = some c ∧ h.isA p c = true
  material : ∀ o p, (h.obj o).material = .obj p → ∃ c, materialType (h.obj o).cls = some c ∧ h.isA p c = true
  owner : ∀ o p, (h.obj o).owner = .obj p → ∃ c, ownerType (h.obj o).cls = some c ∧ h.isA p c = true
  process : ∀ o p, (h.obj o).process = .obj p → ∃ c, processType (h.obj o).cls = some c ∧ h.isA p c = true
  children : ∀ o p, o ∈ (h.obj p).children → o < h.next ∧ ∃ c, ownerType (h.obj o).cls = some c ∧ h.isA p c = true
  output : ∀ o p, (h.obj p).output = some o → o < h.next ∧ ∃ c, processType (h.obj o).cls = some c ∧ h.isA p c = true

theorem accept_obj {h : Heap L N} {c a p} (e : accept h c a = some (.obj p)) : h.isA p c = true := by
  cases a with
  | none => simp [accept] at e
  | link l => simp [accept] at e
  | other => simp [accept] at e
  | obj o =>
    simp only [accept] at e
    split at e
    · simp only [Option.some.injEq, Ref.obj.injEq] at e; subst e; assumption
    · cases e

theorem typed_empty : Typed (Heap.empty : Heap L N) := by
  constructor <;> simp [Heap.empty]

theorem typed_alloc {h : Heap L N} (t : Typed h) {c : Cls} {a : CtorArgs L N} : Typed (h.alloc (fresh c a)) := by
  have key : ∀ p c', h.isA p c' = true → (h.alloc (fresh c a)).isA p c' = true := by
    intro p c' hp
    rw [isA_iff] at hp ⊢
    have : p ≠ h.next := by omega
    simp only [Heap.alloc, this, if_false]
    exact ⟨by omega, hp.2⟩
  have key2 : ∀ o c', (∃ c, ownerType (h.obj o).cls = some c ∧ h.isA c' c = true) → True := fun _ _ _ => trivial
  constructor
  · intro o ho
    have h1 : o ≠ h.next := by simp only [Heap.alloc] at ho; omega
    have h2 : h.next ≤ o := by simp only [Heap.alloc] at ho; omega
    simp only [Heap.alloc, h1, if_false]; exact t.junk o h2
  · intro o p e
    by_cases ho : o = h.next
    · subst ho; simp [Heap.alloc, fresh] at e
    · simp only [Heap.alloc, ho, if_false] at e ⊢
      obtain ⟨c', h1, h2⟩ := t.spec o p e
      exact ⟨c', h1, key _ _ h2⟩
  · intro o p e
    by_cases ho : o = h.next
    · subst ho; simp [Heap.alloc, fresh] at e
    · simp only [Heap.alloc, ho, if_false] at e ⊢
      obtain ⟨c', h1, h2⟩ := t.template o p e
      exact ⟨c', h1, key _ _ h2⟩
  · intro o p e
    by_cases ho : o = h.next
    · subst ho; simp [Heap.alloc, fresh] at e
    · simp only [Heap.alloc, ho, if_false] at e ⊢
      obtain ⟨c', h1, h2⟩ := t.material o p e
      exact ⟨c', h1, key _ _ h2⟩
  · intro o p e
    by_cases ho : o = h.next
    · subst ho; simp [Heap.alloc, fresh] at e
    · simp only [Heap.alloc, ho, if_false] at e ⊢
      obtain ⟨c', h1, h2⟩ := t.owner o p e
      exact ⟨c', h1, key _ _ h2⟩
  · intro o p e
    by_cases ho : o = h.next
    · subst ho; simp [Heap.alloc, fresh] at e
    · simp only [Heap.alloc, ho, if_false] at e ⊢
      obtain ⟨c', h1, h2⟩ := t.process o p e
      exact ⟨c', h1, key _ _ h2⟩
  · intro o p e
    by_cases hp : p = h.next
    · subst hp; simp [Heap.alloc, fresh] at e
    · simp only [Heap.alloc, hp, if_false] at e
      obtain ⟨h0, c', h1, h2⟩ := t.children o p e
      have ho : o ≠ h.next := by omega
      refine ⟨by simp only [Heap.alloc]; omega, c', ?_, key _ _ h2⟩
      simp only [Heap.alloc, ho, if_false]; exact h1
  · intro o p e
    by_cases hp : p = h.next
    · subst hp; simp [Heap.alloc, fresh] at e
    · simp only [Heap.alloc, hp, if_false] at e
      obtain ⟨h0, c', h1, h2⟩ := t.output o p e
      have ho : o ≠ h.next := by omega
      refine ⟨by simp only [Heap.alloc]; omega, c', ?_, key _ _ h2⟩
      simp only [Heap.alloc, ho, if_false]; exact h1

/-- one object of the heap is replaced by one of the same class whose fields are fine -/
theorem typed_upd {h : Heap L N} (t : Typed h) {o : Nat} {f : Obj L N → Obj L N} (ho : o < h.next) (hc : ∀ x, (f x).cls = x.cls)
    (hspec : ∀ p, (f (h.obj o)).spec = .obj p → ∃ c, specType (h.obj o).cls = some c ∧ h.isA p c = true)
    (htemp : ∀ p, (f (h.obj o)).template = .obj p → ∃ c, templateType (h.obj o).cls = some c ∧ h.isA p c = true)
    (hmat : ∀ p, (f (h.obj o)).material = .obj p → ∃ c, materialType (h.obj o).cls = some c ∧ h.isA p c = true)
    (hown : ∀ p, (f (h.obj o)).owner = .obj p → ∃ c, ownerType (h.obj o).cls = some c ∧ h.isA p c = true)
    (hproc : ∀ p, (f (h.obj o)).process = .obj p → ∃ c, processType (h.obj o).cls = some c ∧ h.isA p c = true)
    (hchi : ∀ q, q ∈ (f (h.obj o)).children → q < h.next ∧ ∃ c, ownerType (h.obj q).cls = some c ∧ h.isA o c = true)
    (hout : ∀ q, (f (h.obj o)).output = some q → q < h.next ∧ ∃ c, processType (h.obj q).cls = some c ∧ h.isA o c = true) :
    Typed (h.upd o f) := by
  have s : Same h (h.upd o f) := Same.upd hc
  constructor
  · intro i hi
    rw [upd_next] at hi
    rw [upd_other h f (by omega)]; exact t.junk i hi
  all_goals
    intro i p e
    simp only [s.isA, s.2, s.1] at e ⊢
    rw [upd_obj] at e
  · split at e
    · rename_i hi; subst hi; exact hspec p e
    · exact t.spec i p e
  · split at e
    · rename_i hi; subst hi; exact htemp p e
    · exact t.template i p e
  · split at e
    · rename_i hi; subst hi; exact hmat p e
    · exact t.material i p e
  · split at e
    · rename_i hi; subst hi; exact hown p e
    · exact t.owner i p e
  · split at e
    · rename_i hi; subst hi; exact hproc p e
    · exact t.process i p e
  · split at e
    · rename_i hi; subst hi; exact hchi i e
    · exact t.children i p e
  · split at e
    · rename_i hi; subst hi; exact hout i e
    · exact t.output i p e

theorem typed_storeSpec {h : Heap L N} (t : Typed h) {o} (ho : o < h.next) : Typed (storeSpec h o) := by
  unfold storeSpec
  repeat' split
  all_goals first
    | exact t
    | exact typed_upd t ho (by intro _; rfl) (t.spec o) (t.template o) (t.material o) (t.owner o) (t.process o)
        (fun q => t.children q o) (fun q => t.output q o)

theorem typed_setSpec {h : Heap L N} (t : Typed h) {o} (ho : o < h.next) (a) : Typed (setSpec h o a).1 := by
  unfold setSpec
  split
  · exact t
  · rename_i c hc
    split
    · rename_i r e
      have t' := typed_storeSpec t ho
      have s := same_storeSpec h o
      dsimp only
      refine typed_upd t' (by rw [s.1]; exact ho) (by intro _; rfl) ?_ (t'.template o) (t'.material o) (t'.owner o) (t'.process o)
        (fun q => t'.children q o) (fun q => t'.output q o)
      intro p hp
      rw [s.2]
      refine ⟨c, hc, ?_⟩
      rw [s.isA]
      have hp' : r = .obj p := hp
      subst hp'
      exact accept_obj e
    · exact typed_storeSpec t ho

theorem typed_setTemplate {h : Heap L N} (t : Typed h) {o} (ho : o < h.next) (a) : Typed (setTemplate h o a).1 := by
  unfold setTemplate
  split
  · exact t
  · rename_i c hc
    split
    · rename_i r e
      dsimp only
      refine typed_upd t ho (by intro _; rfl) (t.spec o) ?_ (t.material o) (t.owner o) (t.process o)
        (fun q => t.children q o) (fun q => t.output q o)
      intro p hp
      have hp' : r = .obj p := hp
      subst hp'
      exact ⟨c, hc, accept_obj e⟩
    · exact t

theorem typed_setMaterial {h : Heap L N} (t : Typed h) {o} (ho : o < h.next) (a) : Typed (setMaterial h o a).1 := by
  unfold setMaterial
  split
  · exact t
  · rename_i c hc
    split
    · rename_i r e
      dsimp only
      refine typed_upd t ho (by intro _; rfl) (t.spec o) (t.template o) ?_ (t.owner o) (t.process o)
        (fun q => t.children q o) (fun q => t.output q o)
      intro p hp
      have hp' : r = .obj p := hp
      subst hp'
      exact ⟨c, hc, accept_obj e⟩
    · exact t

theorem removeFirst_sub {eqv : Nat → Bool} {x : Nat} : ∀ {l l' : List Nat}, removeFirst eqv x l = some l' → ∀ q ∈ l', q ∈ l := by
  intro l
  induction l with
  | nil => intro l' e; cases e
  | cons y ys ih =>
    intro l' e q hq
    simp only [removeFirst] at e
    split at e
    · cases e; exact List.mem_cons_of_mem _ hq
    · simp only [Option.map_eq_some_iff] at e
      obtain ⟨m, hm, rfl⟩ := e
      rcases List.mem_cons.mp hq with rfl | hq
      · exact List.mem_cons_self
      · exact List.mem_cons_of_mem _ (ih hm q hq)

theorem typed_unlinkOwner {eqv : Heap L N → Nat → Nat → Bool} {h h' : Heap L N} (t : Typed h) {o c} (e : unlinkOwner eqv h o c = some h') :
    Typed h' := by
  unfold unlinkOwner at e
  split at e
  · rename_i p hp
    split at e
    · rename_i hA
      simp only [Option.map_eq_some_iff] at e
      obtain ⟨l, hl, rfl⟩ := e
      refine typed_upd t ((isA_iff h p c).mp hA).1 (by intro _; rfl) (t.spec p) (t.template p) (t.material p) (t.owner p) (t.process p)
        ?_ (fun q => t.output q p)
      intro q hq
      exact t.children q p (removeFirst_sub hl q hq)
    · cases e; exact t
  · cases e; exact t

theorem typed_linkOwner {h : Heap L N} (t : Typed h) {o c r} (ho : o < h.next) (hc : ownerType (h.obj o).cls = some c)
    (hr : ∀ p, r = .obj p → h.isA p c = true) : Typed (linkOwner h o r) := by
  have t1 : Typed (h.upd o (fun x => { x with owner := r })) := by
    refine typed_upd t ho (by intro _; rfl) (t.spec o) (t.template o) (t.material o) ?_ (t.process o)
        (fun q => t.children q o) (fun q => t.output q o)
    intro p hp
    have hp' : r = .obj p := hp
    exact ⟨c, hc, hr p hp'⟩
  unfold linkOwner
  split
  · rename_i p
    have s : Same h (h.upd o (fun x => { x with owner := Ref.obj p })) := Same.upd (by intro _; rfl)
    refine typed_upd t1 ((isA_iff h p c).mp (hr p rfl)).1 (by intro _; rfl) (t1.spec p) (t1.template p) (t1.material p) (t1.owner p)
      (t1.process p) ?_ (fun q => t1.output q p)
    intro q hq
    rcases List.mem_append.mp hq with hq | hq
    · exact t1.children q p hq
    · rw [List.mem_singleton] at hq
      subst hq
      rw [s.2, s.1]
      exact ⟨ho, c, hc, by rw [s.isA]; exact hr p rfl⟩
  · exact t1

theorem typed_setOwner {eqv : Heap L N → Nat → Nat → Bool} {h : Heap L N} (t : Typed h) {o} (ho : o < h.next) (a) :
    Typed (setOwner eqv h o a).1 := by
  unfold setOwner
  split
  · exact t
  · rename_i c hc
    split
    · exact t
    · rename_i h1 e
      have t1 := typed_unlinkOwner t e
      have s := same_unlinkOwner e
      split
      · exact t1
      · rename_i r er
        refine typed_linkOwner t1 (c := c) (by rw [s.1]; exact ho) (by rw [s.2]; exact hc) ?_
        intro p hp
        subst hp
        rw [s.isA]
        exact accept_obj er

theorem typed_unlinkProcess {h : Heap L N} (t : Typed h) {o c} : Typed (unlinkProcess h o c) := by
  unfold unlinkProcess
  split
  · rename_i p hp
    split
    · rename_i hA
      refine typed_upd t ((isA_iff h p c).mp hA).1 (by intro _; rfl) (t.spec p) (t.template p) (t.material p) (t.owner p) (t.process p)
        (fun q => t.children q p) ?_
      intro q hq; cases hq
    · exact t
  · exact t

theorem typed_linkProcess {h : Heap L N} (t : Typed h) {o c r} (ho : o < h.next) (hc : processType (h.obj o).cls = some c)
    (hr : ∀ p, r = .obj p → h.isA p c = true) : Typed (linkProcess h o r) := by
  unfold linkProcess
  split
  · rename_i p
    have s : Same h (h.upd p (fun x => { x with output := some o })) := Same.upd (by intro _; rfl)
    have t1 : Typed (h.upd p (fun x => { x with output := some o })) := by
      refine typed_upd t ((isA_iff h p c).mp (hr p rfl)).1 (by intro _; rfl) (t.spec p) (t.template p) (t.material p) (t.owner p)
        (t.process p) (fun q => t.children q p) ?_
      intro q hq
      have hq' : some o = some q := hq
      cases hq'
      exact ⟨ho, c, hc, hr p rfl⟩
    refine typed_upd t1 ho (by intro _; rfl) (t1.spec o) (t1.template o) (t1.material o) (t1.owner o) ?_
        (fun q => t1.children q o) (fun q => t1.output q o)
    intro q hq
    have hq' : Ref.obj p = (Ref.obj q : Ref L) := hq
    cases hq'
    rw [s.2]
    exact ⟨c, hc, by rw [s.isA]; exact hr p rfl⟩
  · rename_i hr'
    refine typed_upd t ho (by intro _; rfl) (t.spec o) (t.template o) (t.material o) (t.owner o) ?_
        (fun q => t.children q o) (fun q => t.output q o)
    intro q hq
    exact absurd hq (hr' q)

theorem typed_setProcess {h : Heap L N} (t : Typed h) {o} (ho : o < h.next) (a) : Typed (setProcess h o a).1 := by
  unfold setProcess
  split
  · exact t
  · rename_i c hc
    have s := same_unlinkProcess h o c
    split
    · exact typed_unlinkProcess t
    · rename_i r er
      refine typed_linkProcess (typed_unlinkProcess t) (c := c) (by rw [s.1]; exact ho) (by rw [s.2]; exact hc) ?_
      intro p hp
      subst hp
      rw [s.isA]
      exact accept_obj er

theorem typed_setName {h : Heap L N} (t : Typed h) {o} (ho : o < h.next) (n) : Typed (setName h o n).1 := by
  unfold setName
  split
  · exact t
  · dsimp only
    exact typed_upd t ho (by intro _; rfl) (t.spec o) (t.template o) (t.material o) (t.owner o) (t.process o)
        (fun q => t.children q o) (fun q => t.output q o)

theorem typed_setLabels {h : Heap L N} (t : Typed h) {o} (ho : o < h.next) (n) : Typed (setLabels h o n).1 := by
  unfold setLabels
  split
  · dsimp only
    exact typed_upd t ho (by intro _; rfl) (t.spec o) (t.template o) (t.material o) (t.owner o) (t.process o)
        (fun q => t.children q o) (fun q => t.output q o)
  · exact t

theorem typed_finish {h : Heap L N} (t : Typed h) {o c a} (ho : o < h.next) : Typed (finish h o c a).1 := by
  unfold finish
  split
  · exact t
  · split
    · dsimp only
      exact typed_upd t ho (by intro _; rfl) (t.spec o) (t.template o) (t.material o) (t.owner o) (t.process o)
        (fun q => t.children q o) (fun q => t.output q o)
    · exact t

theorem typed_construct {eqv : Heap L N → Nat → Nat → Bool} {h : Heap L N} (t : Typed h) (c a) : Typed (construct eqv h c a).1 := by
  have lt : ∀ h', Same (h.alloc (fresh c a)) h' → h.next < h'.next := by
    intro h' s
    rw [s.1]; simp [Heap.alloc]
  apply construct_inv eqv (I := Typed)
  · exact typed_alloc t
  · exact fun h' s t' => typed_setSpec t' (lt h' s) _
  · exact fun h' s t' => typed_setTemplate t' (lt h' s) _
  · exact fun h' s t' => typed_setMaterial t' (lt h' s) _
  · exact fun h' s t' => typed_setOwner t' (lt h' s) _
  · exact fun h' s t' => typed_setProcess t' (lt h' s) _
  · exact fun h' s t' => typed_finish t' (lt h' s)

theorem typed_step {eqv : Heap L N → Nat → Nat → Bool} {h : Heap L N} (t : Typed h) (op) : Typed (step eqv h op).1 := by
  cases op <;> simp only [step]
  case construct c a => exact typed_construct t c a
  all_goals split
  all_goals rename_i ho
  all_goals first
    | exact t
    | exact typed_setSpec t ho _
    | exact typed_setTemplate t ho _
    | exact typed_setMaterial t ho _
    | exact typed_setOwner t ho _
    | exact typed_setProcess t ho _
    | exact typed_setName t ho _
    | exact typed_setLabels t ho _

theorem typed_run {eqv : Heap L N → Nat → Nat → Bool} : ∀ (ops : List (Op L N)) {h : Heap L N}, Typed h → Typed (run eqv h ops)
  | [], _, t => t
  | op :: ops, _, t => typed_run ops (typed_step t op)

/-- the reference fields as users see them -/
inductive Field where
  | spec | template | process | material
  deriving DecidableEq

/-- the field of an object, by class: what the getters return -/
def Field.get (f : Field) (x : Obj L N) : Ref L :=
  match f with
  | .spec => x.spec
  | .template => x.template
  | .process => match x.cls with
    | .ingredientRun | .ingredientSpec => x.owner
    | _ => x.process
  | .material => match x.cls with
    | .measurementRun => x.owner
    | _ => x.material

/-- the declarations of the reference fields -/
def declared : List (Cls × Field × Cls) :=
  [(.processRun, .spec, .processSpec), (.materialRun, .spec, .materialSpec), (.ingredientRun, .spec, .ingredientSpec),
   (.measurementRun, .spec, .measurementSpec), (.processSpec, .template, .processTemplate),
   (.materialSpec, .template, .materialTemplate), (.measurementSpec, .template, .measurementTemplate),
   (.materialRun, .process, .processRun), (.materialSpec, .process, .processSpec), (.ingredientRun, .process, .processRun),
   (.ingredientSpec, .process, .processSpec), (.ingredientRun, .material, .materialRun), (.ingredientSpec, .material, .materialSpec),
   (.measurementRun, .material, .materialRun)]

/-- C29: after any history of constructions and attempted assignments of anything, every reference field that holds an object holds
an object of the declared class -/
theorem C29_references (eqv : Heap L N → Nat → Nat → Bool) (ops : List (Op L N)) (o p : Nat) (f : Field)
    (e : f.get ((run eqv Heap.empty ops).obj o) = .obj p) :
    p < (run eqv Heap.empty ops).next ∧
      (((run eqv Heap.empty ops).obj o).cls, f, ((run eqv Heap.empty ops).obj p).cls) ∈ declared := by
  have t : Typed (run eqv (Heap.empty : Heap L N) ops) := typed_run ops typed_empty
  generalize run eqv (Heap.empty : Heap L N) ops = h at t e ⊢
  have fin : ∀ (tab : Cls → Option Cls), (∃ c, tab (h.obj o).cls = some c ∧ h.isA p c = true) →
      (∀ c₁ c₂, tab c₁ = some c₂ → (c₁, f, c₂) ∈ declared) → p < h.next ∧ ((h.obj o).cls, f, (h.obj p).cls) ∈ declared := by
    rintro tab ⟨c, h1, h2⟩ h3
    rw [isA_iff] at h2
    refine ⟨h2.1, ?_⟩
    rw [h2.2]
    exact h3 _ _ h1
  cases f with
  | spec => exact fin specType (t.spec o p e) (by intro c₁ c₂; cases c₁ <;> cases c₂ <;> simp [specType, declared])
  | template => exact fin templateType (t.template o p e) (by intro c₁ c₂; cases c₁ <;> cases c₂ <;> simp [templateType, declared])
  | process =>
    simp only [Field.get] at e
    split at e
    · rename_i hc
      obtain ⟨c, h1, h2⟩ := t.owner o p e
      rw [hc] at h1
      exact fin (fun c => if c = .ingredientRun then some .processRun else none) ⟨c, by rw [hc]; exact h1, h2⟩
        (by intro c₁ c₂; cases c₁ <;> cases c₂ <;> simp [declared])
    · rename_i hc
      obtain ⟨c, h1, h2⟩ := t.owner o p e
      rw [hc] at h1
      exact fin (fun c => if c = .ingredientSpec then some .processSpec else none) ⟨c, by rw [hc]; exact h1, h2⟩
        (by intro c₁ c₂; cases c₁ <;> cases c₂ <;> simp [declared])
    · exact fin processType (t.process o p e) (by intro c₁ c₂; cases c₁ <;> cases c₂ <;> simp [processType, declared])
  | material =>
    simp only [Field.get] at e
    split at e
    · rename_i hc
      obtain ⟨c, h1, h2⟩ := t.owner o p e
      rw [hc] at h1
      exact fin (fun c => if c = .measurementRun then some .materialRun else none) ⟨c, by rw [hc]; exact h1, h2⟩
        (by intro c₁ c₂; cases c₁ <;> cases c₂ <;> simp [declared])
    · exact fin materialType (t.material o p e) (by intro c₁ c₂; cases c₁ <;> cases c₂ <;> simp [materialType, declared])


/-- assignments that the declaration does not allow -/
def Forbidden (h : Heap L N) (o : Nat) (f : Field) (a : Arg L) : Prop :=
  match a with
  | .none | .link _ => False
  | .obj q => ((h.obj o).cls, f, (h.obj q).cls) ∉ declared
  | .other => True

theorem accept_none_of {h : Heap L N} {o : Nat} {f : Field} {a : Arg L} {c : Cls} (bad : Forbidden h o f a)
    (hd : ((h.obj o).cls, f, c) ∈ declared) : accept h c a = none := by
  cases a with
  | none => exact bad.elim
  | link l => exact bad.elim
  | other => rfl
  | obj q =>
    simp only [accept]
    rw [if_neg]
    intro hA
    rw [isA_iff] at hA
    apply bad
    rw [hA.2]; exact hd

/-- C29: an assignment that is not allowed raises a TypeError, and no field is changed (the reference fields set without back
reference: spec, template, the material of an ingredient) -/
theorem C29_rejected (h : Heap L N) (o : Nat) (a : Arg L) :
    ((∃ c, ((h.obj o).cls, Field.spec, c) ∈ declared) → Forbidden h o .spec a →
      (setSpec h o a).2 = .error .typeError ∧ ∀ i f, Field.get f ((setSpec h o a).1.obj i) = Field.get f (h.obj i)) ∧
    ((∃ c, ((h.obj o).cls, Field.template, c) ∈ declared) → Forbidden h o .template a →
      setTemplate h o a = (h, .error .typeError)) ∧
    ((∃ c, ((h.obj o).cls, Field.material, c) ∈ declared) → (h.obj o).cls ≠ .measurementRun → Forbidden h o .material a →
      setMaterial h o a = (h, .error .typeError)) := by
  have hst : ∀ i f, Field.get f ((storeSpec h o).obj i) = Field.get f (h.obj i) := by
    intro i f
    unfold storeSpec
    repeat' split
    all_goals try rfl
    rw [upd_obj]
    split
    · cases f <;> rfl
    · rfl
  refine ⟨fun hd bad => ?_, fun hd bad => ?_, fun hd hm bad => ?_⟩
  · obtain ⟨c, hd⟩ := hd
    have ht : specType (h.obj o).cls = some c := by
      generalize (h.obj o).cls = k at hd
      revert hd; cases k <;> cases c <;> simp [declared, specType]
    have := accept_none_of bad hd
    simp only [setSpec, ht, this]
    exact ⟨trivial, hst⟩
  · obtain ⟨c, hd⟩ := hd
    have ht : templateType (h.obj o).cls = some c := by
      generalize (h.obj o).cls = k at hd
      revert hd; cases k <;> cases c <;> simp [declared, templateType]
    simp only [setTemplate, ht, accept_none_of bad hd]
  · obtain ⟨c, hd⟩ := hd
    have ht : materialType (h.obj o).cls = some c := by
      generalize (h.obj o).cls = k at hd hm
      revert hd hm; cases k <;> cases c <;> simp [declared, materialType]
    simp only [setMaterial, ht, accept_none_of bad hd]

/-- C29: the same for the fields with a back reference: an assignment that is not allowed raises, with a TypeError except when the
object was already missing from its owner's list, and the field itself keeps its content (but see `C26_failed_assignment_counterexample`
and `C27_failed_assignment_counterexample` for the back reference) -/
theorem C29_rejected_linked (eqv : Heap L N → Nat → Nat → Bool) (h : Heap L N) (o : Nat) (a : Arg L) :
    ((∃ c, ((h.obj o).cls, Field.process, c) ∈ declared) → Forbidden h o .process a → (h.obj o).cls = .materialRun ∨ (h.obj o).cls = .materialSpec →
      (setProcess h o a).2 = .error .typeError ∧ ∀ i f, Field.get f ((setProcess h o a).1.obj i) = Field.get f (h.obj i)) ∧
    (((h.obj o).cls = .ingredientRun ∨ (h.obj o).cls = .ingredientSpec) ∧ Forbidden h o .process a ∨
      (h.obj o).cls = .measurementRun ∧ Forbidden h o .material a →
      ((setOwner eqv h o a).2 = .error .typeError ∨ (setOwner eqv h o a).2 = .error .valueError) ∧
      ∀ i f, Field.get f ((setOwner eqv h o a).1.obj i) = Field.get f (h.obj i)) := by
  constructor
  · rintro ⟨c, hd⟩ bad hk
    have ht : processType (h.obj o).cls = some c := by
      rcases hk with hk | hk <;> rw [hk] at hd ⊢ <;> revert hd <;> cases c <;> simp [declared, processType]
    simp only [setProcess, ht, accept_none_of bad hd, true_and]
    intro i f
    unfold unlinkProcess
    repeat' split
    all_goals try rfl
    rw [upd_obj]
    split
    · cases f <;> rfl
    · rfl
  · intro hyp
    obtain ⟨c, ht, ha⟩ : ∃ c, ownerType (h.obj o).cls = some c ∧ accept h c a = none := by
      rcases hyp with ⟨hk | hk, bad⟩ | ⟨hk, bad⟩
      · exact ⟨.processRun, by rw [hk]; rfl, accept_none_of bad (by rw [hk]; simp [declared])⟩
      · exact ⟨.processSpec, by rw [hk]; rfl, accept_none_of bad (by rw [hk]; simp [declared])⟩
      · exact ⟨.materialRun, by rw [hk]; rfl, accept_none_of bad (by rw [hk]; simp [declared])⟩
    simp only [setOwner, ht, ha]
    split
    · exact ⟨Or.inr rfl, fun _ _ => rfl⟩
    · rename_i h1 e
      refine ⟨Or.inl rfl, fun i f => ?_⟩
      unfold unlinkOwner at e
      split at e
      · split at e
        · simp only [Option.map_eq_some_iff] at e
          obtain ⟨l, hl, rfl⟩ := e
          rw [upd_obj]
          split
          · cases f <;> rfl
          · rfl
        · cases e; rfl
      · cases e; rfl

/-- a process cannot be the spec of a process run -/
example : Forbidden (run (fun _ _ _ => false) (Heap.empty : Heap Nat Nat) [.construct .processRun {}]) 0 .spec (.obj 0) := by
  unfold Forbidden; decide

/-! ## C26 and C28: ingredients and processes, measurements and materials -/

theorem removeFirst_erase {eqv : Nat → Bool} {x : Nat} : ∀ {l : List Nat}, x ∈ l → (∀ y ∈ l, eqv y = true → y = x) →
    removeFirst eqv x l = some (l.erase x) := by
  intro l
  induction l with
  | nil => intro h; cases h
  | cons y ys ih =>
    intro hx ht
    simp only [removeFirst]
    by_cases hy : y = x
    · subst hy; simp
    · have : ¬ (y = x ∨ eqv y = true) := by
        rintro (h | h)
        · exact hy h
        · exact hy (ht y List.mem_cons_self h)
      rw [if_neg this]
      rcases List.mem_cons.mp hx with h | h
      · exact absurd h.symm hy
      · rw [ih h (fun z hz => ht z (List.mem_cons_of_mem _ hz))]
        simp [List.erase_cons, hy]

/-- `list.remove` of an element that is not there, and equals none that is there -/
theorem removeFirst_absent {eqv : Nat → Bool} {x : Nat} : ∀ {l : List Nat}, x ∉ l → (∀ y ∈ l, eqv y = true → y = x) →
    removeFirst eqv x l = none := by
  intro l
  induction l with
  | nil => intros; rfl
  | cons y ys ih =>
    intro hx ht
    rw [List.mem_cons, not_or] at hx
    simp only [removeFirst]
    have : ¬ (y = x ∨ eqv y = true) := by
      rintro (h | h)
      · exact hx.1 h.symm
      · exact hx.1 (ht y List.mem_cons_self h).symm
    rw [if_neg this, ih hx.2 (fun z hz => ht z (List.mem_cons_of_mem _ hz))]
    rfl

/-- no other member of the owner's list equals the object -/
def NoTwin (eqv : Heap L N → Nat → Nat → Bool) (h : Heap L N) (o : Nat) : Prop :=
  ∀ p, (h.obj o).owner = .obj p → ∀ y ∈ (h.obj p).children, eqv h y o = true → y = o

/-- the invariant: with `full`, an object is in the list of its owner exactly once, and in no other list; without `full`, at most
once -/
def Lnk (K : Cls → Prop) (full : Prop) (h : Heap L N) : Prop :=
  ∀ i p, K (h.obj i).cls →
    ((h.obj i).owner = .obj p → (h.obj p).children.count i ≤ 1 ∧ (full → (h.obj p).children.count i = 1)) ∧
    ((h.obj i).owner ≠ .obj p → (h.obj p).children.count i = 0)

/-- all classes with the same owner class are in `K` or none -/
def Closed (K : Cls → Prop) : Prop := ∀ c c' d, ownerType c = some d → ownerType c' = some d → K c → K c'

theorem Lnk.congr {K : Cls → Prop} {full : Prop} {h h' : Heap L N} (g : Lnk K full h) (s : ∀ i, K (h'.obj i).cls → K (h.obj i).cls)
    (ho : ∀ i, K (h'.obj i).cls → (h'.obj i).owner = (h.obj i).owner)
    (hc : ∀ i p, K (h'.obj i).cls → (h'.obj p).children.count i = (h.obj p).children.count i) : Lnk K full h' := by
  intro i p hk
  rw [ho i hk, hc i p hk]
  exact g i p (s i hk)

theorem upd_children {h : Heap L N} {p : Nat} {l : List Nat} (q : Nat) :
    ((h.upd p (fun x => { x with children := l })).obj q).children = if q = p then l else (h.obj q).children := by
  rw [upd_obj]; split <;> rfl
theorem upd_children_owner {h : Heap L N} {p : Nat} {l : List Nat} (q : Nat) :
    ((h.upd p (fun x => { x with children := l })).obj q).owner = (h.obj q).owner := by
  rw [upd_obj]; split <;> rfl

/-- after unlinking, the object is in no list; other objects are where they were -/
theorem unlink_count {eqv : Heap L N → Nat → Nat → Bool} {K : Cls → Prop} {full : Prop} {h h1 : Heap L N} {o : Nat} {c : Cls}
    (t : Typed h) (g : Lnk K full h) (hk : K (h.obj o).cls) (hc : ownerType (h.obj o).cls = some c) (nt : NoTwin eqv h o)
    (e : unlinkOwner eqv h o c = some h1) :
    (∀ i, (h1.obj i).owner = (h.obj i).owner) ∧
    ∀ i p, (h1.obj p).children.count i = if i = o then 0 else (h.obj p).children.count i := by
  unfold unlinkOwner at e
  split at e
  · rename_i q hq
    obtain ⟨c', hc', hA⟩ := t.owner o q hq
    rw [hc] at hc'; cases hc'
    rw [if_pos hA] at e
    simp only [Option.map_eq_some_iff] at e
    obtain ⟨l, hl, rfl⟩ := e
    refine ⟨fun i => upd_children_owner i, fun i p => ?_⟩
    rw [upd_children]
    have hcount : (h.obj q).children.count o ≤ 1 := ((g o q hk).1 hq).1
    have hmem : o ∈ (h.obj q).children := by
      refine Classical.byContradiction (fun hno => ?_)
      rw [removeFirst_absent hno (nt q hq)] at hl
      cases hl
    rw [removeFirst_erase hmem (nt q hq)] at hl
    cases hl
    by_cases hp : p = q
    · subst hp
      rw [if_pos rfl]
      by_cases hi : i = o
      · subst hi
        rw [if_pos rfl, List.count_erase_self]; omega
      · rw [if_neg hi, List.count_erase_of_ne (by simpa using hi)]
    · rw [if_neg hp]
      by_cases hi : i = o
      · subst hi
        rw [if_pos rfl]
        exact (g i p hk).2 (by rw [hq]; intro hh; cases hh; exact hp rfl)
      · rw [if_neg hi]
  · rename_i hno
    cases e
    refine ⟨fun _ => rfl, fun i p => ?_⟩
    split
    · rename_i hi; subst hi
      exact (g i p hk).2 (hno p)
    · rfl

/-- unlinking an object of another kind does not change the lists in question -/
theorem unlink_other {eqv : Heap L N → Nat → Nat → Bool} {K : Cls → Prop} {h h1 : Heap L N} {o : Nat} {c : Cls} (cl : Closed K)
    (t : Typed h) (hk : ¬ K (h.obj o).cls) (hc : ownerType (h.obj o).cls = some c)
    (e : unlinkOwner eqv h o c = some h1) :
    (∀ i, (h1.obj i).owner = (h.obj i).owner) ∧
    ∀ i p, K (h.obj i).cls → (h1.obj p).children.count i = (h.obj p).children.count i := by
  unfold unlinkOwner at e
  split at e
  · rename_i q hq
    split at e
    · rename_i hA
      simp only [Option.map_eq_some_iff] at e
      obtain ⟨l, hl, rfl⟩ := e
      refine ⟨fun i => upd_children_owner i, fun i p hki => ?_⟩
      rw [upd_children]
      split
      · rename_i hp; subst hp
        have hn : i ∉ (h.obj p).children := by
          intro hi
          obtain ⟨_, d, h1, h2⟩ := t.children i p hi
          rw [isA_iff] at h2 hA
          exact hk (cl _ _ d h1 (by rw [hc, ← hA.2, h2.2]) hki)
        have hn' : i ∉ l := fun hi => hn (removeFirst_sub hl i hi)
        rw [List.count_eq_zero_of_not_mem hn, List.count_eq_zero_of_not_mem hn']
      · rfl
    · cases e; exact ⟨fun _ => rfl, fun _ _ _ => rfl⟩
  · cases e; exact ⟨fun _ => rfl, fun _ _ _ => rfl⟩

theorem linkOwner_owner {h : Heap L N} {o : Nat} {r : Ref L} (i : Nat) :
    ((linkOwner h o r).obj i).owner = if i = o then r else (h.obj i).owner := by
  unfold linkOwner
  split
  · rw [upd_obj]
    split <;> (rw [upd_obj]; split <;> rfl)
  · rw [upd_obj]; split <;> rfl

open Classical in
theorem linkOwner_children {h : Heap L N} {o : Nat} {r : Ref L} (i p : Nat) :
    ((linkOwner h o r).obj p).children.count i =
      (h.obj p).children.count i + if i = o ∧ r = .obj p then 1 else 0 := by
  have key : ∀ r, ((h.upd o (fun x => { x with owner := r })).obj p).children = (h.obj p).children := by
    intro r; rw [upd_obj]; split <;> rfl
  unfold linkOwner
  split
  · rename_i q
    rw [upd_obj]
    split
    · rename_i hp; subst hp
      rw [List.count_append, key]
      by_cases hi : i = o
      · subst hi; simp
      · simp [hi, List.count_singleton]
        intro h'; exact absurd h'.symm hi
    · rename_i hp
      rw [key]
      have : ¬ (i = o ∧ (Ref.obj q : Ref L) = .obj p) := by
        rintro ⟨_, h⟩; cases h; exact hp rfl
      rw [if_neg this]; rfl
  · rename_i hr
    rw [key]
    have : ¬ (i = o ∧ r = .obj p) := fun h => hr p h.2
    rw [if_neg this]; rfl

open Classical in
/-- the owner setter keeps the invariant if no twin is around, and, for the full invariant, if no assignment fails while the object
has an owner -/
theorem lnk_setOwner {eqv : Heap L N → Nat → Nat → Bool} {K : Cls → Prop} {full : Prop} {h : Heap L N} (cl : Closed K)
    (t : Typed h) (g : Lnk K full h) {o : Nat} {a : Arg L} (nt : K (h.obj o).cls → NoTwin eqv h o)
    (acc : full → K (h.obj o).cls → (∃ p, (h.obj o).owner = .obj p) → ∀ c, ownerType (h.obj o).cls = some c → accept h c a ≠ none) :
    Lnk K full (setOwner eqv h o a).1 := by
  have same := same_setOwner eqv h o a
  unfold setOwner at same ⊢
  split
  · exact g
  · rename_i c hc
    rw [hc] at same
    dsimp only at same ⊢
    split
    · exact g
    · rename_i h1 e
      by_cases hk : K (h.obj o).cls
      · obtain ⟨u1, u2⟩ := unlink_count t g hk hc (nt hk) e
        have s1 := same_unlinkOwner e
        split
        · rename_i ha
          intro i p hki
          dsimp only at hki ⊢
          rw [s1.2] at hki
          rw [u1, u2]
          have gi := g i p hki
          by_cases hi : i = o
          · subst hi
            rw [if_pos rfl]
            refine ⟨fun hp => ⟨by omega, fun hf => ?_⟩, fun _ => rfl⟩
            exact absurd ha (acc hf hk ⟨p, hp⟩ c hc)
          · rw [if_neg hi]; exact gi
        · rename_i r ha
          have s2 := s1.trans (same_linkOwner h1 o r)
          intro i p hki
          dsimp only at hki ⊢
          rw [s2.2] at hki
          rw [linkOwner_owner, linkOwner_children, u1, u2]
          by_cases hi : i = o
          · subst hi
            simp only [if_true, true_and]
            refine ⟨fun hp => ?_, fun hp => ?_⟩
            · subst hp; simp
            · rw [if_neg hp]
          · have : ¬ (i = o ∧ r = .obj p) := fun h => hi h.1
            rw [if_neg hi, if_neg hi, if_neg this]
            exact g i p hki
      · obtain ⟨u1, u2⟩ := unlink_other cl t hk hc e
        have s1 := same_unlinkOwner e
        split
        · intro i p hki
          dsimp only at hki ⊢
          rw [s1.2] at hki
          rw [u1, u2 i p hki]
          exact g i p hki
        · rename_i r ha
          have s2 := s1.trans (same_linkOwner h1 o r)
          intro i p hki
          dsimp only at hki ⊢
          rw [s2.2] at hki
          have hi : i ≠ o := fun h => hk (h ▸ hki)
          have : ¬ (i = o ∧ r = .obj p) := fun h => hi h.1
          rw [linkOwner_owner, linkOwner_children, u1, u2 i p hki, if_neg hi, if_neg this]
          exact g i p hki

/-- changes that touch neither owners nor lists -/
theorem lnk_upd {K : Cls → Prop} {full : Prop} {h : Heap L N} (g : Lnk K full h) {o : Nat} {f : Obj L N → Obj L N}
    (hf : ∀ x, (f x).cls = x.cls ∧ (f x).owner = x.owner ∧ (f x).children = x.children) : Lnk K full (h.upd o f) := by
  have key : ∀ i, ((h.upd o f).obj i).cls = (h.obj i).cls ∧ ((h.upd o f).obj i).owner = (h.obj i).owner ∧
      ((h.upd o f).obj i).children = (h.obj i).children := by
    intro i
    rw [upd_obj]; split
    · exact hf _
    · exact ⟨rfl, rfl, rfl⟩
  refine g.congr (fun i hk => ?_) (fun i _ => (key i).2.1) (fun i p _ => by rw [(key p).2.2])
  rw [(key i).1] at hk; exact hk

theorem lnk_storeSpec {K : Cls → Prop} {full : Prop} {h : Heap L N} (g : Lnk K full h) (o) : Lnk K full (storeSpec h o) := by
  unfold storeSpec
  repeat' split
  all_goals first | exact g | exact lnk_upd g (by intro _; exact ⟨rfl, rfl, rfl⟩)

theorem lnk_setSpec {K : Cls → Prop} {full : Prop} {h : Heap L N} (g : Lnk K full h) (o a) : Lnk K full (setSpec h o a).1 := by
  unfold setSpec
  repeat' split
  all_goals first
    | exact g
    | exact lnk_storeSpec g o
    | (dsimp only; exact lnk_upd (lnk_storeSpec g o) (by intro _; exact ⟨rfl, rfl, rfl⟩))

theorem lnk_setTemplate {K : Cls → Prop} {full : Prop} {h : Heap L N} (g : Lnk K full h) (o a) : Lnk K full (setTemplate h o a).1 := by
  unfold setTemplate
  repeat' split
  all_goals first | exact g | (dsimp only; exact lnk_upd g (by intro _; exact ⟨rfl, rfl, rfl⟩))

theorem lnk_setMaterial {K : Cls → Prop} {full : Prop} {h : Heap L N} (g : Lnk K full h) (o a) : Lnk K full (setMaterial h o a).1 := by
  unfold setMaterial
  repeat' split
  all_goals first | exact g | (dsimp only; exact lnk_upd g (by intro _; exact ⟨rfl, rfl, rfl⟩))

theorem lnk_setName {K : Cls → Prop} {full : Prop} {h : Heap L N} (g : Lnk K full h) (o n) : Lnk K full (setName h o n).1 := by
  unfold setName
  repeat' split
  all_goals first | exact g | (dsimp only; exact lnk_upd g (by intro _; exact ⟨rfl, rfl, rfl⟩))

theorem lnk_setLabels {K : Cls → Prop} {full : Prop} {h : Heap L N} (g : Lnk K full h) (o n) : Lnk K full (setLabels h o n).1 := by
  unfold setLabels
  repeat' split
  all_goals first | exact g | (dsimp only; exact lnk_upd g (by intro _; exact ⟨rfl, rfl, rfl⟩))

theorem lnk_finish {K : Cls → Prop} {full : Prop} {h : Heap L N} (g : Lnk K full h) (o c a) : Lnk K full (finish h o c a).1 := by
  unfold finish
  repeat' split
  all_goals first | exact g | (dsimp only; exact lnk_upd g (by intro _; exact ⟨rfl, rfl, rfl⟩))

theorem lnk_unlinkProcess {K : Cls → Prop} {full : Prop} {h : Heap L N} (g : Lnk K full h) (o c) : Lnk K full (unlinkProcess h o c) := by
  unfold unlinkProcess
  repeat' split
  all_goals first | exact g | (exact lnk_upd g (by intro _; exact ⟨rfl, rfl, rfl⟩))

theorem lnk_setProcess {K : Cls → Prop} {full : Prop} {h : Heap L N} (g : Lnk K full h) (o a) : Lnk K full (setProcess h o a).1 := by
  unfold setProcess linkProcess
  repeat' split
  all_goals first
    | exact g
    | exact lnk_unlinkProcess g _ _
    | (dsimp only; exact lnk_upd (lnk_unlinkProcess g _ _) (by intro _; exact ⟨rfl, rfl, rfl⟩))
    | (dsimp only; exact lnk_upd (lnk_upd (lnk_unlinkProcess g _ _) (by intro _; exact ⟨rfl, rfl, rfl⟩)) (by intro _; exact ⟨rfl, rfl, rfl⟩))

theorem lnk_alloc {K : Cls → Prop} {full : Prop} {h : Heap L N} (t : Typed h) (g : Lnk K full h) (c a) :
    Lnk K full (h.alloc (fresh c a)) := by
  intro i p hk
  have hch : ((h.alloc (fresh c a)).obj p).children = (h.obj p).children := by
    by_cases hp : p = h.next
    · subst hp
      simp only [Heap.alloc, if_true, fresh]
      exact (t.junk _ (Nat.le_refl _)).2.2.1.symm
    · simp only [Heap.alloc, hp, if_false]
  rw [hch]
  by_cases hi : i = h.next
  · subst hi
    have h0 : (h.obj p).children.count h.next = 0 := by
      apply List.count_eq_zero_of_not_mem
      intro hm
      have := (t.children _ _ hm).1
      omega
    refine ⟨fun ho => ?_, fun _ => h0⟩
    simp [Heap.alloc, fresh] at ho
  · simp only [Heap.alloc, hi, if_false] at hk ⊢
    exact g i p hk

/-- the new object has no owner before `setOwner` is called -/
theorem lnk_construct {eqv : Heap L N → Nat → Nat → Bool} {K : Cls → Prop} {full : Prop} {h : Heap L N} (cl : Closed K) (t : Typed h)
    (g : Lnk K full h) (c a) : Lnk K full (construct eqv h c a).1 := by
  have lt : ∀ h', Same (h.alloc (fresh c a)) h' → h.next < h'.next := by
    intro h' s
    rw [s.1]; simp [Heap.alloc]
  have own : ∀ {h1 h2 : Heap L N} {o : Nat} {f : Obj L N → Obj L N}, (h1.obj h.next).owner = .none → (∀ x, (f x).owner = x.owner) →
      ((h1.upd o f).obj h.next).owner = .none := by
    intro h1 h2 o f h3 h4
    rw [upd_obj]; split
    · rw [h4]; exact h3
    · exact h3
  unfold construct
  have s1 := same_setSpec (h.alloc (fresh c a)) h.next a.spec
  have t1 := typed_setSpec (typed_alloc t (c := c) (a := a)) (lt _ (Same.refl _)) a.spec
  have g1 := lnk_setSpec (lnk_alloc t g c a) h.next a.spec
  have o1 : ((setSpec (h.alloc (fresh c a)) h.next a.spec).1.obj h.next).owner = .none := by
    have o0 : ((h.alloc (fresh c a)).obj h.next).owner = .none := by simp [Heap.alloc, fresh]
    have os : ((storeSpec (h.alloc (fresh c a)) h.next).obj h.next).owner = .none := by
      unfold storeSpec
      repeat' split
      all_goals first | exact o0 | exact own (h2 := h) o0 (by intro _; rfl)
    unfold setSpec
    repeat' split
    all_goals first | exact o0 | exact os | (dsimp only; exact own (h2 := h) os (by intro _; rfl))
  refine andThen_inv (I := Lnk K full) g1 (fun _ => ?_)
  generalize (setSpec (h.alloc (fresh c a)) h.next a.spec).1 = h1 at s1 t1 g1 o1 ⊢
  have lt1 := lt _ s1
  obtain ⟨s2, t2, g2, o2⟩ : Same (h.alloc (fresh c a)) (if c = .ingredientSpec then ((h1, .ok ()) : Ret L N) else setTemplate h1 h.next a.template).1
      ∧ Typed (if c = .ingredientSpec then ((h1, .ok ()) : Ret L N) else setTemplate h1 h.next a.template).1
      ∧ Lnk K full (if c = .ingredientSpec then ((h1, .ok ()) : Ret L N) else setTemplate h1 h.next a.template).1
      ∧ ((if c = .ingredientSpec then ((h1, .ok ()) : Ret L N) else setTemplate h1 h.next a.template).1.obj h.next).owner = .none := by
    split
    · exact ⟨s1, t1, g1, o1⟩
    · refine ⟨s1.trans (same_setTemplate _ _ _), typed_setTemplate t1 lt1 _, lnk_setTemplate g1 _ _, ?_⟩
      unfold setTemplate
      repeat' split
      all_goals first | exact o1 | (dsimp only; exact own (h2 := h) o1 (by intro _; rfl))
  refine andThen_inv (I := Lnk K full) g2 (fun _ => ?_)
  generalize (if c = .ingredientSpec then ((h1, .ok ()) : Ret L N) else setTemplate h1 h.next a.template).1 = h2 at s2 t2 g2 o2 ⊢
  have s3 := s2.trans (same_setMaterial h2 h.next a.material)
  have t3 := typed_setMaterial t2 (lt _ s2) a.material
  have g3 := lnk_setMaterial g2 h.next a.material
  have o3 : ((setMaterial h2 h.next a.material).1.obj h.next).owner = .none := by
    unfold setMaterial
    repeat' split
    all_goals first | exact o2 | (dsimp only; exact own (h2 := h) o2 (by intro _; rfl))
  refine andThen_inv (I := Lnk K full) g3 (fun _ => ?_)
  generalize (setMaterial h2 h.next a.material).1 = h3 at s3 t3 g3 o3 ⊢
  have g4 : Lnk K full (setOwner eqv h3 h.next a.owner).1 := by
    refine lnk_setOwner cl t3 g3 ?_ ?_
    · intro _ p hp; rw [o3] at hp; cases hp
    · rintro _ _ ⟨p, hp⟩; rw [o3] at hp; cases hp
  refine andThen_inv (I := Lnk K full) g4 (fun _ => ?_)
  refine andThen_inv (I := Lnk K full) (lnk_setProcess g4 _ _) (fun _ => ?_)
  exact lnk_finish (lnk_setProcess g4 _ _) _ _ _

/-- what is asked of one call: when the owner of an object of a class in `K` is assigned, no other member of the present owner's list
equals it, and (for the full invariant) the assigned value is acceptable -/
def Good (eqv : Heap L N → Nat → Nat → Bool) (K : Cls → Prop) (full : Prop) (h : Heap L N) : Op L N → Prop
  | .setOwner o a => K (h.obj o).cls → NoTwin eqv h o ∧ (full → (setOwner eqv h o a).2 ≠ .error .typeError)
  | _ => True

/-- … and of a history -/
def AllGood (eqv : Heap L N → Nat → Nat → Bool) (K : Cls → Prop) (full : Prop) (h : Heap L N) : List (Op L N) → Prop
  | [] => True
  | op :: ops => Good eqv K full h op ∧ AllGood eqv K full (step eqv h op).1 ops

theorem lnk_step {eqv : Heap L N → Nat → Nat → Bool} {K : Cls → Prop} {full : Prop} {h : Heap L N} (cl : Closed K) (t : Typed h)
    (g : Lnk K full h) (op) (gd : Good eqv K full h op) : Lnk K full (step eqv h op).1 := by
  cases op <;> simp only [step]
  case construct c a => exact lnk_construct cl t g c a
  case setOwner o a =>
    split
    · refine lnk_setOwner cl t g (fun hk => (gd hk).1) ?_
      rintro hf hk ⟨p, hp⟩ c hc ha
      have := (gd hk).2 hf
      apply this
      unfold setOwner
      rw [hc]
      dsimp only
      rw [ha]
      -- the full invariant: the object is in the list, so unlinking succeeds
      have hcnt := ((g o p hk).1 hp).2 hf
      have hmem : o ∈ (h.obj p).children := by
        apply List.count_pos_iff.mp; omega
      obtain ⟨c', hc', hA⟩ := t.owner o p hp
      rw [hc] at hc'; cases hc'
      have : unlinkOwner eqv h o c = some (h.upd p (fun x => { x with children := (h.obj p).children.erase o })) := by
        unfold unlinkOwner
        rw [hp]
        dsimp only
        rw [if_pos hA, removeFirst_erase hmem ((gd hk).1 p hp)]
        rfl
      rw [this]
    · exact g
  all_goals split
  all_goals first
    | exact g
    | exact lnk_setSpec g _ _
    | exact lnk_setTemplate g _ _
    | exact lnk_setMaterial g _ _
    | exact lnk_setProcess g _ _
    | exact lnk_setName g _ _
    | exact lnk_setLabels g _ _

theorem lnk_run {eqv : Heap L N → Nat → Nat → Bool} {K : Cls → Prop} {full : Prop} (cl : Closed K) : ∀ (ops : List (Op L N)) {h : Heap L N},
    Typed h → Lnk K full h → AllGood eqv K full h ops → Lnk K full (run eqv h ops)
  | [], _, _, g, _ => g
  | op :: ops, _, t, g, gd => lnk_run cl ops (typed_step t op) (lnk_step cl t g op gd.1) gd.2

theorem lnk_empty {K : Cls → Prop} {full : Prop} : Lnk K full (Heap.empty : Heap L N) := by
  intro i p _
  simp [Heap.empty]

/-- ingredients -/
def Ingr (c : Cls) : Prop := c = .ingredientRun ∨ c = .ingredientSpec
/-- measurements -/
def Meas (c : Cls) : Prop := c = .measurementRun

theorem closed_ingr : Closed Ingr := by
  intro c c' d; cases c <;> cases c' <;> cases d <;> simp [ownerType, Ingr]
theorem closed_meas : Closed Meas := by
  intro c c' d; cases c <;> cases c' <;> cases d <;> simp [ownerType, Meas]

/-- C26, for histories in which no assignment of a process to an ingredient raises a TypeError and no ingredient is moved while
another ingredient of the same process equals it: an ingredient's process is `p` exactly when `p` lists it, and then once.
Full statement: the same for all histories; see the counterexamples. -/
theorem C26_linked_partial (eqv : Heap L N → Nat → Nat → Bool) (ops : List (Op L N)) (good : AllGood eqv Ingr True Heap.empty ops)
    (i p : Nat) (hi : Ingr ((run eqv Heap.empty ops).obj i).cls) :
    (Field.process.get ((run eqv Heap.empty ops).obj i) = .obj p ↔ i ∈ ((run eqv Heap.empty ops).obj p).children) ∧
    ((run eqv Heap.empty ops).obj p).children.count i ≤ 1 := by
  have g : Lnk Ingr True (run eqv (Heap.empty : Heap L N) ops) := lnk_run closed_ingr ops typed_empty lnk_empty good
  generalize run eqv (Heap.empty : Heap L N) ops = h at g hi ⊢
  have e : Field.process.get (h.obj i) = (h.obj i).owner := by
    rcases hi with hi | hi <;> simp only [Field.get, hi]
  rw [e]
  obtain ⟨g1, g2⟩ := g i p hi
  refine ⟨⟨fun ho => ?_, fun hm => ?_⟩, ?_⟩
  · apply List.count_pos_iff.mp; rw [(g1 ho).2 trivial]; decide
  · refine Classical.byContradiction (fun hn => ?_)
    have := g2 hn
    exact absurd (List.count_pos_iff.mpr hm) (by omega)
  · by_cases ho : (h.obj i).owner = .obj p
    · exact (g1 ho).1
    · rw [g2 ho]; decide

/-- C26, failing assignments allowed: whatever a process lists has it as its process, and is listed once -/
theorem C26_listed_partial (eqv : Heap L N → Nat → Nat → Bool) (ops : List (Op L N)) (good : AllGood eqv Ingr False Heap.empty ops)
    (i p : Nat) (hi : Ingr ((run eqv Heap.empty ops).obj i).cls) :
    (i ∈ ((run eqv Heap.empty ops).obj p).children → Field.process.get ((run eqv Heap.empty ops).obj i) = .obj p) ∧
    ((run eqv Heap.empty ops).obj p).children.count i ≤ 1 := by
  have g : Lnk Ingr False (run eqv (Heap.empty : Heap L N) ops) := lnk_run closed_ingr ops typed_empty lnk_empty good
  generalize run eqv (Heap.empty : Heap L N) ops = h at g hi ⊢
  have e : Field.process.get (h.obj i) = (h.obj i).owner := by
    rcases hi with hi | hi <;> simp only [Field.get, hi]
  rw [e]
  obtain ⟨g1, g2⟩ := g i p hi
  refine ⟨fun hm => ?_, ?_⟩
  · refine Classical.byContradiction (fun hn => ?_)
    have := g2 hn
    exact absurd (List.count_pos_iff.mpr hm) (by omega)
  · by_cases ho : (h.obj i).owner = .obj p
    · exact (g1 ho).1
    · rw [g2 ho]; decide

/-- C26, any history: what a process lists are ingredients of its kind that exist -/
theorem C26_members (eqv : Heap L N → Nat → Nat → Bool) (ops : List (Op L N)) (i p : Nat)
    (hp : ((run eqv Heap.empty ops).obj p).cls = .processRun ∨ ((run eqv Heap.empty ops).obj p).cls = .processSpec)
    (hm : i ∈ ((run eqv Heap.empty ops).obj p).children) :
    i < (run eqv Heap.empty ops).next ∧
    ((run eqv Heap.empty ops).obj i).cls =
      if ((run eqv Heap.empty ops).obj p).cls = .processRun then .ingredientRun else .ingredientSpec := by
  have t : Typed (run eqv (Heap.empty : Heap L N) ops) := typed_run ops typed_empty
  generalize run eqv (Heap.empty : Heap L N) ops = h at t hp hm ⊢
  obtain ⟨h0, c, h1, h2⟩ := t.children i p hm
  rw [isA_iff] at h2
  refine ⟨h0, ?_⟩
  rw [h2.2] at hp ⊢
  generalize (h.obj i).cls = k at h1
  rcases hp with rfl | rfl <;> revert h1 <;> cases k <;> simp [ownerType]

/-- C28, for histories in which no assignment of a material to a measurement raises a TypeError and no measurement is moved while
another measurement of the same material equals it. Full statement: the same for all histories; see the counterexamples. -/
theorem C28_linked_partial (eqv : Heap L N → Nat → Nat → Bool) (ops : List (Op L N)) (good : AllGood eqv Meas True Heap.empty ops)
    (i p : Nat) (hi : ((run eqv Heap.empty ops).obj i).cls = .measurementRun) :
    (Field.material.get ((run eqv Heap.empty ops).obj i) = .obj p ↔ i ∈ ((run eqv Heap.empty ops).obj p).children) ∧
    ((run eqv Heap.empty ops).obj p).children.count i ≤ 1 := by
  have g : Lnk Meas True (run eqv (Heap.empty : Heap L N) ops) := lnk_run closed_meas ops typed_empty lnk_empty good
  generalize run eqv (Heap.empty : Heap L N) ops = h at g hi ⊢
  have e : Field.material.get (h.obj i) = (h.obj i).owner := by simp only [Field.get, hi]
  rw [e]
  obtain ⟨g1, g2⟩ := g i p hi
  refine ⟨⟨fun ho => ?_, fun hm => ?_⟩, ?_⟩
  · apply List.count_pos_iff.mp; rw [(g1 ho).2 trivial]; decide
  · refine Classical.byContradiction (fun hn => ?_)
    have := g2 hn
    exact absurd (List.count_pos_iff.mpr hm) (by omega)
  · by_cases ho : (h.obj i).owner = .obj p
    · exact (g1 ho).1
    · rw [g2 ho]; decide

/-- C28, failing assignments allowed: whatever a material lists has it as its material, and is listed once -/
theorem C28_listed_partial (eqv : Heap L N → Nat → Nat → Bool) (ops : List (Op L N)) (good : AllGood eqv Meas False Heap.empty ops)
    (i p : Nat) (hi : ((run eqv Heap.empty ops).obj i).cls = .measurementRun) :
    (i ∈ ((run eqv Heap.empty ops).obj p).children → Field.material.get ((run eqv Heap.empty ops).obj i) = .obj p) ∧
    ((run eqv Heap.empty ops).obj p).children.count i ≤ 1 := by
  have g : Lnk Meas False (run eqv (Heap.empty : Heap L N) ops) := lnk_run closed_meas ops typed_empty lnk_empty good
  generalize run eqv (Heap.empty : Heap L N) ops = h at g hi ⊢
  have e : Field.material.get (h.obj i) = (h.obj i).owner := by simp only [Field.get, hi]
  rw [e]
  obtain ⟨g1, g2⟩ := g i p hi
  refine ⟨fun hm => ?_, ?_⟩
  · refine Classical.byContradiction (fun hn => ?_)
    have := g2 hn
    exact absurd (List.count_pos_iff.mpr hm) (by omega)
  · by_cases ho : (h.obj i).owner = .obj p
    · exact (g1 ho).1
    · rw [g2 ho]; decide

/-- C28, any history: what a material lists are measurement runs that exist -/
theorem C28_members (eqv : Heap L N → Nat → Nat → Bool) (ops : List (Op L N)) (i p : Nat)
    (hp : ((run eqv Heap.empty ops).obj p).cls = .materialRun)
    (hm : i ∈ ((run eqv Heap.empty ops).obj p).children) :
    i < (run eqv Heap.empty ops).next ∧ ((run eqv Heap.empty ops).obj i).cls = .measurementRun := by
  have t : Typed (run eqv (Heap.empty : Heap L N) ops) := typed_run ops typed_empty
  generalize run eqv (Heap.empty : Heap L N) ops = h at t hp hm ⊢
  obtain ⟨h0, c, h1, h2⟩ := t.children i p hm
  rw [isA_iff] at h2
  refine ⟨h0, ?_⟩
  rw [h2.2] at hp
  subst hp
  generalize (h.obj i).cls = k at h1
  revert h1; cases k <;> simp [ownerType]


/-! ### Concrete histories -/

/-- equality for the examples: same class and same fields. For objects without further fields that refer to the same objects this is
`==` (base_entity.py:120-205). -/
def sameFields (h : Heap Nat Nat) (a b : Nat) : Bool := decide (h.obj a = h.obj b)

/-- a process, two different ingredients of it; one moves to a second process, one is unlinked -/
def exIngr : List (Op Nat Nat) :=
  [.construct .processRun {}, .construct .processRun {}, .construct .ingredientRun { owner := .obj 0, name := some 1 },
   .construct .ingredientRun { owner := .obj 0, name := some 2 }, .setOwner 2 (.obj 1), .setOwner 3 (.link 5), .setOwner 3 (.obj 1)]

theorem noTwin_of {eqv : Heap L N → Nat → Nat → Bool} {h : Heap L N} {o p : Nat} (e : (h.obj o).owner = .obj p)
    (d : ∀ y ∈ (h.obj p).children, eqv h y o = true → y = o) : NoTwin eqv h o := by
  intro q hq y hy hyo
  rw [e] at hq; cases hq
  exact d y hy hyo

theorem noTwin_free {eqv : Heap L N → Nat → Nat → Bool} {h : Heap L N} {o : Nat} {l : L} (e : (h.obj o).owner = .link l) :
    NoTwin eqv h o := fun p hp => by rw [e] at hp; cases hp

/-- the hypotheses of `C26_linked_partial` are met by a history with moves -/
example : AllGood sameFields Ingr True (Heap.empty : Heap Nat Nat) exIngr := by
  refine ⟨trivial, trivial, trivial, trivial, fun _ => ⟨noTwin_of (p := 0) (by decide) (by decide), fun _ => by decide⟩,
    fun _ => ⟨noTwin_of (p := 0) (by decide) (by decide), fun _ => by decide⟩,
    fun _ => ⟨noTwin_free (l := 5) (by decide), fun _ => by decide⟩, trivial⟩
example : ((run sameFields Heap.empty exIngr).obj 1).children = [2, 3] ∧ ((run sameFields Heap.empty exIngr).obj 0).children = [] := by
  decide

/-- C26 fails for histories with a failed assignment: the ingredient has left the list of its process, but still names it; and from
then on no process can be assigned at all -/
theorem C26_failed_assignment_counterexample :
    let h := run sameFields Heap.empty [.construct .processRun {}, .construct .ingredientRun { owner := .obj 0 }, .setOwner 1 .other]
    Field.process.get (h.obj 1) = .obj 0 ∧ (h.obj 0).children = [] ∧
    ∀ a, setOwner sameFields h 1 a = (h, .error .valueError) := by
  refine ⟨by decide, by decide, fun a => ?_⟩
  rfl

/-- C26 fails if two ingredients of a process are equal: unlinking the second removes the first from the list; the first then cannot
be moved -/
theorem C26_twin_counterexample :
    let h := run sameFields Heap.empty [.construct .processRun {}, .construct .ingredientRun { owner := .obj 0 },
      .construct .ingredientRun { owner := .obj 0 }, .setOwner 2 .none]
    Field.process.get (h.obj 1) = .obj 0 ∧ Field.process.get (h.obj 2) = .none ∧ (h.obj 0).children = [2] ∧
    ∀ a, (setOwner sameFields h 1 a).2 = .error .valueError := by
  refine ⟨by decide, by decide, by decide, fun a => ?_⟩
  rfl

/-- a material, two different measurements; one moves to a second material -/
def exMeas : List (Op Nat Nat) :=
  [.construct .materialRun {}, .construct .materialRun {}, .construct .measurementRun { owner := .obj 0, name := some 1 },
   .construct .measurementRun { owner := .obj 0, name := some 2 }, .setOwner 2 (.obj 1)]

example : AllGood sameFields Meas True (Heap.empty : Heap Nat Nat) exMeas :=
  ⟨trivial, trivial, trivial, trivial, fun _ => ⟨noTwin_of (p := 0) (by decide) (by decide), fun _ => by decide⟩, trivial⟩
example : ((run sameFields Heap.empty exMeas).obj 1).children = [2] ∧ ((run sameFields Heap.empty exMeas).obj 0).children = [3] := by
  decide

/-- C28 fails for histories with a failed assignment -/
theorem C28_failed_assignment_counterexample :
    let h := run sameFields Heap.empty [.construct .materialRun {}, .construct .measurementRun { owner := .obj 0 }, .setOwner 1 .other]
    Field.material.get (h.obj 1) = .obj 0 ∧ (h.obj 0).children = [] ∧
    ∀ a, setOwner sameFields h 1 a = (h, .error .valueError) := by
  refine ⟨by decide, by decide, fun a => ?_⟩
  rfl

/-- C28 fails if two measurements of a material are equal -/
theorem C28_twin_counterexample :
    let h := run sameFields Heap.empty [.construct .materialRun {}, .construct .measurementRun { owner := .obj 0 },
      .construct .measurementRun { owner := .obj 0 }, .setOwner 2 .none]
    Field.material.get (h.obj 1) = .obj 0 ∧ Field.material.get (h.obj 2) = .none ∧ (h.obj 0).children = [2] := by
  decide

/-! ## C27: materials and processes -/

/-- the output material of a process has it as its process; with `full` also conversely -/
def Out (full : Prop) (h : Heap L N) : Prop :=
  ∀ m p, ((h.obj p).output = some m → (h.obj m).process = .obj p) ∧ (full → (h.obj m).process = .obj p → (h.obj p).output = some m)

theorem out_upd {full : Prop} {h : Heap L N} (g : Out full h) {o : Nat} {f : Obj L N → Obj L N}
    (hf : ∀ x, (f x).process = x.process ∧ (f x).output = x.output) : Out full (h.upd o f) := by
  have key : ∀ i, ((h.upd o f).obj i).process = (h.obj i).process ∧ ((h.upd o f).obj i).output = (h.obj i).output := by
    intro i
    rw [upd_obj]; split
    · exact hf _
    · exact ⟨rfl, rfl⟩
  intro m p
  rw [(key m).1, (key p).2]
  exact g m p

theorem out_storeSpec {full : Prop} {h : Heap L N} (g : Out full h) (o) : Out full (storeSpec h o) := by
  unfold storeSpec
  repeat' split
  all_goals first | exact g | exact out_upd g (by intro _; exact ⟨rfl, rfl⟩)

theorem out_setSpec {full : Prop} {h : Heap L N} (g : Out full h) (o a) : Out full (setSpec h o a).1 := by
  unfold setSpec
  repeat' split
  all_goals first
    | exact g
    | exact out_storeSpec g o
    | (dsimp only; exact out_upd (out_storeSpec g o) (by intro _; exact ⟨rfl, rfl⟩))

theorem out_setTemplate {full : Prop} {h : Heap L N} (g : Out full h) (o a) : Out full (setTemplate h o a).1 := by
  unfold setTemplate
  repeat' split
  all_goals first | exact g | (dsimp only; exact out_upd g (by intro _; exact ⟨rfl, rfl⟩))

theorem out_setMaterial {full : Prop} {h : Heap L N} (g : Out full h) (o a) : Out full (setMaterial h o a).1 := by
  unfold setMaterial
  repeat' split
  all_goals first | exact g | (dsimp only; exact out_upd g (by intro _; exact ⟨rfl, rfl⟩))

theorem out_setName {full : Prop} {h : Heap L N} (g : Out full h) (o n) : Out full (setName h o n).1 := by
  unfold setName
  repeat' split
  all_goals first | exact g | (dsimp only; exact out_upd g (by intro _; exact ⟨rfl, rfl⟩))

theorem out_setLabels {full : Prop} {h : Heap L N} (g : Out full h) (o n) : Out full (setLabels h o n).1 := by
  unfold setLabels
  repeat' split
  all_goals first | exact g | (dsimp only; exact out_upd g (by intro _; exact ⟨rfl, rfl⟩))

theorem out_finish {full : Prop} {h : Heap L N} (g : Out full h) (o c a) : Out full (finish h o c a).1 := by
  unfold finish
  repeat' split
  all_goals first | exact g | (dsimp only; exact out_upd g (by intro _; exact ⟨rfl, rfl⟩))

theorem out_setOwner {eqv : Heap L N → Nat → Nat → Bool} {full : Prop} {h : Heap L N} (g : Out full h) (o a) :
    Out full (setOwner eqv h o a).1 := by
  unfold setOwner
  split
  · exact g
  · split
    · exact g
    · rename_i h1 e
      have g1 : Out full h1 := by
        unfold unlinkOwner at e
        split at e
        · split at e
          · simp only [Option.map_eq_some_iff] at e
            obtain ⟨l, _, rfl⟩ := e
            exact out_upd g (by intro _; exact ⟨rfl, rfl⟩)
          · cases e; exact g
        · cases e; exact g
      split
      · exact g1
      · unfold linkOwner
        dsimp only
        split
        · exact out_upd (out_upd g1 (by intro _; exact ⟨rfl, rfl⟩)) (by intro _; exact ⟨rfl, rfl⟩)
        · exact out_upd g1 (by intro _; exact ⟨rfl, rfl⟩)

theorem out_alloc {full : Prop} {h : Heap L N} (t : Typed h) (g : Out full h) (c a) : Out full (h.alloc (fresh c a)) := by
  have key : ∀ i, ((h.alloc (fresh c a)).obj i).process = (h.obj i).process ∧
      ((h.alloc (fresh c a)).obj i).output = (h.obj i).output := by
    intro i
    by_cases hi : i = h.next
    · subst hi
      have := t.junk _ (Nat.le_refl h.next)
      simp only [Heap.alloc, if_true, fresh]
      exact ⟨this.2.1.symm, this.2.2.2.1.symm⟩
    · simp only [Heap.alloc, hi, if_false, and_self]
  intro m p
  rw [(key m).1, (key p).2]
  exact g m p

theorem unlinkProcess_process (h : Heap L N) (o c i) : ((unlinkProcess h o c).obj i).process = (h.obj i).process := by
  unfold unlinkProcess
  repeat' split
  all_goals first | rfl | (rw [upd_obj]; split <;> rfl)

/-- which outputs are left after unlinking: all but that of the present process -/
theorem unlinkProcess_output {h : Heap L N} (t : Typed h) {o c} (hc : processType (h.obj o).cls = some c) (p : Nat) :
    ((h.obj o).process = .obj p → ((unlinkProcess h o c).obj p).output = none) ∧
    ((h.obj o).process ≠ .obj p → ((unlinkProcess h o c).obj p).output = (h.obj p).output) := by
  unfold unlinkProcess
  split
  · rename_i q hq
    obtain ⟨c', h1, h2⟩ := t.process o q hq
    rw [hc] at h1; cases h1
    rw [if_pos h2, hq]
    refine ⟨fun e => ?_, fun e => ?_⟩
    · cases e; rw [upd_obj, if_pos rfl]
    · rw [upd_obj, if_neg (fun h => e (by rw [h]))]
  · rename_i hn
    exact ⟨fun e => absurd e (hn p), fun _ => rfl⟩

theorem linkProcess_process (h : Heap L N) (o r i) : ((linkProcess h o r).obj i).process = if i = o then r else (h.obj i).process := by
  unfold linkProcess
  split
  · rw [upd_obj]
    split
    · rfl
    · rw [upd_obj]; split <;> rfl
  · rw [upd_obj]; split <;> rfl

theorem linkProcess_output (h : Heap L N) (o r p) :
    (r = .obj p → ((linkProcess h o r).obj p).output = some o) ∧
    (r ≠ .obj p → ((linkProcess h o r).obj p).output = (h.obj p).output) := by
  unfold linkProcess
  split
  · rename_i q
    refine ⟨fun e => ?_, fun e => ?_⟩
    · cases e
      rw [upd_obj]; split <;> simp [upd_obj]
    · have : p ≠ q := fun h => e (by rw [h])
      rw [upd_obj]; split <;> simp [upd_obj, this]
  · rename_i hn
    refine ⟨fun e => absurd e (hn p), fun _ => ?_⟩
    rw [upd_obj]; split <;> rfl

/-- the process setter keeps: outputs have their process; and the converse, if nothing is stolen and no assignment fails while there
is a process -/
theorem out_setProcess {full : Prop} {h : Heap L N} (t : Typed h) (g : Out full h) {o : Nat} {a : Arg L}
    (acc : full → (∃ p, (h.obj o).process = .obj p) → ∀ c, processType (h.obj o).cls = some c → accept h c a ≠ none)
    (free : full → ∀ c, processType (h.obj o).cls = some c → ∀ q, accept h c a = some (.obj q) → ∀ m, (h.obj q).output = some m → m = o) :
    Out full (setProcess h o a).1 := by
  unfold setProcess
  split
  · exact g
  · rename_i c hc
    have uo := unlinkProcess_output t hc
    have up := unlinkProcess_process h o c
    split
    · rename_i ha
      intro m p
      dsimp only
      rw [up]
      refine ⟨fun e => ?_, fun hf e => ?_⟩
      · by_cases hp : (h.obj o).process = .obj p
        · rw [(uo p).1 hp] at e; cases e
        · rw [(uo p).2 hp] at e; exact (g m p).1 e
      · by_cases hp : (h.obj o).process = .obj p
        · exact absurd ha (acc hf ⟨p, hp⟩ c hc)
        · rw [(uo p).2 hp]; exact (g m p).2 hf e
    · rename_i r ha
      intro m p
      dsimp only
      have lo := linkProcess_output (unlinkProcess h o c) o r p
      rw [linkProcess_process, up]
      refine ⟨fun e => ?_, fun hf e => ?_⟩
      · by_cases hr : r = .obj p
        · rw [lo.1 hr] at e
          simp only [Option.some.injEq] at e
          rw [if_pos e.symm]; exact hr
        · rw [lo.2 hr] at e
          by_cases hp : (h.obj o).process = .obj p
          · rw [(uo p).1 hp] at e; cases e
          · rw [(uo p).2 hp] at e
            have := (g m p).1 e
            have hm : m ≠ o := fun h => hp (h ▸ this)
            rw [if_neg hm]; exact this
      · split at e
        · rename_i hm
          subst hm
          exact lo.1 e
        · rename_i hm
          have hout := (g m p).2 hf e
          have hr : r ≠ .obj p := by
            intro hr
            subst hr
            exact hm (free hf c hc p ha m hout)
          rw [lo.2 hr]
          by_cases hp : (h.obj o).process = .obj p
          · have := (g o p).2 hf hp
            rw [hout] at this; cases this; exact absurd rfl hm
          · rw [(uo p).2 hp]; exact hout

/-- what is asked of one call for the converse: the process that is assigned does not have another output material, and the
assignment does not fail -/
def Good27 (h : Heap L N) : Op L N → Prop
  | .setProcess o a => (setProcess h o a).2 ≠ .error .typeError ∧ ∀ q, a = .obj q → ∀ m, (h.obj q).output = some m → m = o
  | .construct _ a => ∀ q, a.process = .obj q → (h.obj q).output = none
  | _ => True

def AllGood27 (eqv : Heap L N → Nat → Nat → Bool) (h : Heap L N) : List (Op L N) → Prop
  | [] => True
  | op :: ops => Good27 h op ∧ AllGood27 eqv (step eqv h op).1 ops

theorem accept_arg {h : Heap L N} {c a q} (e : accept h c a = some (.obj q)) : a = .obj q := by
  cases a with
  | none => simp [accept] at e
  | link l => simp [accept] at e
  | other => simp [accept] at e
  | obj o =>
    simp only [accept] at e
    split at e
    · simp only [Option.some.injEq, Ref.obj.injEq] at e; subst e; rfl
    · cases e

theorem out_construct {eqv : Heap L N → Nat → Nat → Bool} {full : Prop} {h : Heap L N} (t : Typed h) (g : Out full h) (c a)
    (free : full → ∀ q, a.process = .obj q → (h.obj q).output = none) : Out full (construct eqv h c a).1 := by
  have lt : ∀ h', Same (h.alloc (fresh c a)) h' → h.next < h'.next := by
    intro h' s
    rw [s.1]; simp [Heap.alloc]
  let Pre : Heap L N → Prop := fun h' => Out full h' ∧ Typed h' ∧
    (∀ i, (h'.obj i).output = (h.obj i).output) ∧ (h'.obj h.next).process = .none
  have pre_upd : ∀ {h' : Heap L N} {o f}, Typed (h'.upd o f) → (∀ x, (f x).process = x.process ∧ (f x).output = x.output) → Pre h' →
      Pre (h'.upd o f) := by
    rintro h' o f t' hf ⟨p1, p2, p3, p4⟩
    refine ⟨out_upd p1 hf, t', fun i => ?_, ?_⟩
    · rw [← p3 i, upd_obj]; split
      · exact (hf _).2
      · rfl
    · rw [← p4, upd_obj]; split
      · exact (hf _).1
      · rfl
  have p0 : Pre (h.alloc (fresh c a)) := by
    refine ⟨out_alloc t g c a, typed_alloc t, fun i => ?_, by simp [Heap.alloc, fresh]⟩
    by_cases hi : i = h.next
    · subst hi
      simp only [Heap.alloc, if_true, fresh]
      exact (t.junk _ (Nat.le_refl h.next)).2.2.2.1.symm
    · simp only [Heap.alloc, hi, if_false]
  unfold construct
  have s1 := same_setSpec (h.alloc (fresh c a)) h.next a.spec
  have p1 : Pre (setSpec (h.alloc (fresh c a)) h.next a.spec).1 := by
    have ps : Pre (storeSpec (h.alloc (fresh c a)) h.next) := by
      have ht := typed_storeSpec p0.2.1 (lt _ (Same.refl _))
      unfold storeSpec at ht ⊢
      split at ht
      · split at ht
        · split at ht
          · simp_all only [if_true]
            exact pre_upd ht (by intro _; exact ⟨rfl, rfl⟩) p0
          · simp_all
        · simp_all
      · simp_all
    have ht := typed_setSpec p0.2.1 (lt _ (Same.refl _)) a.spec
    unfold setSpec at ht ⊢
    split
    · exact p0
    · rename_i hx
      simp only [hx] at ht
      split
      · rename_i hy
        simp only [hy] at ht
        exact pre_upd ht (by intro _; exact ⟨rfl, rfl⟩) ps
      · exact ps
  refine andThen_inv (I := Out full) p1.1 (fun _ => ?_)
  generalize (setSpec (h.alloc (fresh c a)) h.next a.spec).1 = h1 at s1 p1 ⊢
  obtain ⟨s2, p2⟩ : Same (h.alloc (fresh c a)) (if c = .ingredientSpec then ((h1, .ok ()) : Ret L N) else setTemplate h1 h.next a.template).1
      ∧ Pre (if c = .ingredientSpec then ((h1, .ok ()) : Ret L N) else setTemplate h1 h.next a.template).1 := by
    split
    · exact ⟨s1, p1⟩
    · refine ⟨s1.trans (same_setTemplate _ _ _), ?_⟩
      have ht := typed_setTemplate p1.2.1 (lt _ s1) a.template
      unfold setTemplate at ht ⊢
      split
      · exact p1
      · rename_i hx
        simp only [hx] at ht
        split
        · rename_i hy
          simp only [hy] at ht
          exact pre_upd ht (by intro _; exact ⟨rfl, rfl⟩) p1
        · exact p1
  refine andThen_inv (I := Out full) p2.1 (fun _ => ?_)
  generalize (if c = .ingredientSpec then ((h1, .ok ()) : Ret L N) else setTemplate h1 h.next a.template).1 = h2 at s2 p2 ⊢
  have s3 := s2.trans (same_setMaterial h2 h.next a.material)
  have p3 : Pre (setMaterial h2 h.next a.material).1 := by
    have ht := typed_setMaterial p2.2.1 (lt _ s2) a.material
    unfold setMaterial at ht ⊢
    split
    · exact p2
    · rename_i hx
      simp only [hx] at ht
      split
      · rename_i hy
        simp only [hy] at ht
        exact pre_upd ht (by intro _; exact ⟨rfl, rfl⟩) p2
      · exact p2
  refine andThen_inv (I := Out full) p3.1 (fun _ => ?_)
  generalize (setMaterial h2 h.next a.material).1 = h3 at s3 p3 ⊢
  have s4 := s3.trans (same_setOwner eqv h3 h.next a.owner)
  have p4 : Pre (setOwner eqv h3 h.next a.owner).1 := by
    have key : ∀ i, ((setOwner eqv h3 h.next a.owner).1.obj i).output = (h3.obj i).output ∧
        ((setOwner eqv h3 h.next a.owner).1.obj i).process = (h3.obj i).process := by
      intro i
      unfold setOwner
      split
      · exact ⟨rfl, rfl⟩
      · split
        · exact ⟨rfl, rfl⟩
        · rename_i h4 e
          have k1 : (h4.obj i).output = (h3.obj i).output ∧ (h4.obj i).process = (h3.obj i).process := by
            unfold unlinkOwner at e
            split at e
            · split at e
              · simp only [Option.map_eq_some_iff] at e
                obtain ⟨l, _, rfl⟩ := e
                rw [upd_obj]; split <;> exact ⟨rfl, rfl⟩
              · cases e; exact ⟨rfl, rfl⟩
            · cases e; exact ⟨rfl, rfl⟩
          split
          · exact k1
          · rw [← k1.1, ← k1.2]
            unfold linkOwner
            dsimp only
            split
            · rw [upd_obj]
              split <;> (rw [upd_obj]; split <;> exact ⟨rfl, rfl⟩)
            · rw [upd_obj]; split <;> exact ⟨rfl, rfl⟩
    refine ⟨out_setOwner p3.1 _ _, typed_setOwner p3.2.1 (lt _ s3) _, fun i => ?_, ?_⟩
    · rw [(key i).1]; exact p3.2.2.1 i
    · rw [(key _).2]; exact p3.2.2.2
  refine andThen_inv (I := Out full) p4.1 (fun _ => ?_)
  generalize (setOwner eqv h3 h.next a.owner).1 = h4 at s4 p4 ⊢
  have g5 : Out full (setProcess h4 h.next a.process).1 := by
    refine out_setProcess p4.2.1 p4.1 ?_ ?_
    · rintro _ ⟨p, hp⟩; rw [p4.2.2.2] at hp; cases hp
    · intro hf c' hc' q hq m hm
      rw [p4.2.2.1 q, free hf q (accept_arg hq)] at hm
      cases hm
  refine andThen_inv (I := Out full) g5 (fun _ => ?_)
  exact out_finish g5 _ _ _

theorem out_step {eqv : Heap L N → Nat → Nat → Bool} {full : Prop} {h : Heap L N} (t : Typed h) (g : Out full h) (op)
    (gd : full → Good27 h op) : Out full (step eqv h op).1 := by
  cases op <;> simp only [step]
  case construct c a => exact out_construct t g c a (fun hf => gd hf)
  case setProcess o a =>
    split
    · refine out_setProcess t g ?_ ?_
      · rintro hf _ c hc ha
        apply (gd hf).1
        unfold setProcess
        rw [hc]; dsimp only
        rw [ha]
      · intro hf c _ q hq m hm
        exact (gd hf).2 q (accept_arg hq) m hm
    · exact g
  all_goals split
  all_goals first
    | exact g
    | exact out_setSpec g _ _
    | exact out_setTemplate g _ _
    | exact out_setMaterial g _ _
    | exact out_setOwner g _ _
    | exact out_setName g _ _
    | exact out_setLabels g _ _

theorem out_run {eqv : Heap L N → Nat → Nat → Bool} {full : Prop} : ∀ (ops : List (Op L N)) {h : Heap L N},
    Typed h → Out full h → (full → AllGood27 eqv h ops) → Out full (run eqv h ops)
  | [], _, _, g, _ => g
  | op :: ops, _, t, g, gd => out_run ops (typed_step t op) (out_step t g op (fun hf => (gd hf).1)) (fun hf => (gd hf).2)

theorem out_empty {full : Prop} : Out full (Heap.empty : Heap L N) := by
  intro m p
  simp [Heap.empty]

/-- C27, any history (failing assignments and stealing included): the output material of a process has that process as its process.
So a material is the output of at most one process. -/
theorem C27_output (eqv : Heap L N → Nat → Nat → Bool) (ops : List (Op L N)) (m p : Nat)
    (e : ((run eqv Heap.empty ops).obj p).output = some m) :
    Field.process.get ((run eqv Heap.empty ops).obj m) = .obj p ∧
    (((run eqv Heap.empty ops).obj m).cls = .materialRun ∨ ((run eqv Heap.empty ops).obj m).cls = .materialSpec) := by
  have t : Typed (run eqv (Heap.empty : Heap L N) ops) := typed_run ops typed_empty
  have g : Out False (run eqv (Heap.empty : Heap L N) ops) := out_run ops typed_empty out_empty (fun h => h.elim)
  generalize run eqv (Heap.empty : Heap L N) ops = h at t g e ⊢
  have hp := (g m p).1 e
  obtain ⟨_, c, h1, _⟩ := t.output m p e
  have hc : (h.obj m).cls = .materialRun ∨ (h.obj m).cls = .materialSpec := by
    generalize (h.obj m).cls = k at h1
    revert h1; cases k <;> simp [processType]
  refine ⟨?_, hc⟩
  rcases hc with hc | hc <;> simp only [Field.get, hc] <;> exact hp

/-- C27, for histories in which no process is given to a second material while it has one, and no assignment of a process fails: a
material's process is `p` exactly when `p`'s output is the material. Full statement: the same for all histories; see the
counterexamples. -/
theorem C27_one_to_one_partial (eqv : Heap L N → Nat → Nat → Bool) (ops : List (Op L N)) (good : AllGood27 eqv Heap.empty ops)
    (m p : Nat) (hm : ((run eqv Heap.empty ops).obj m).cls = .materialRun ∨ ((run eqv Heap.empty ops).obj m).cls = .materialSpec) :
    Field.process.get ((run eqv Heap.empty ops).obj m) = .obj p ↔ ((run eqv Heap.empty ops).obj p).output = some m := by
  have g : Out True (run eqv (Heap.empty : Heap L N) ops) := out_run ops typed_empty out_empty (fun _ => good)
  generalize run eqv (Heap.empty : Heap L N) ops = h at g hm ⊢
  have e : Field.process.get (h.obj m) = (h.obj m).process := by
    rcases hm with hm | hm <;> simp only [Field.get, hm]
  rw [e]
  exact ⟨fun hp => (g m p).2 trivial hp, fun hp => (g m p).1 hp⟩

/-- moving a material to another process and back -/
def exMat : List (Op Nat Nat) :=
  [.construct .processRun {}, .construct .processRun {}, .construct .materialRun { process := .obj 0 }, .setProcess 2 (.obj 1),
   .construct .materialRun { process := .obj 0 }, .setProcess 2 .none]

example : AllGood27 sameFields (Heap.empty : Heap Nat Nat) exMat := by
  refine ⟨(by intro q e; cases e), (by intro q e; cases e), ?_, ⟨by decide, ?_⟩, ?_, ⟨by decide, ?_⟩, trivial⟩
  · intro q e; cases e; decide
  · intro q e; cases e; decide
  · intro q e; cases e; decide
  · intro q e; cases e
example : ((run sameFields Heap.empty exMat).obj 0).output = some 3 ∧ ((run sameFields Heap.empty exMat).obj 1).output = none := by decide

/-- C27 fails if a process is given to a second material: the first still names it; and if the first is then unlinked, the second
loses its place -/
theorem C27_stealing_counterexample :
    let ops : List (Op Nat Nat) := [.construct .processRun {}, .construct .materialRun { process := .obj 0 }, .construct .materialRun { process := .obj 0 }]
    let h := run sameFields Heap.empty ops
    let h' := run sameFields Heap.empty (ops ++ [.setProcess 1 .none])
    Field.process.get (h.obj 1) = .obj 0 ∧ (h.obj 0).output = some 2 ∧
    Field.process.get (h'.obj 2) = .obj 0 ∧ (h'.obj 0).output = none := by
  decide

/-- C27 fails if an assignment raises: the process has lost its output, which still names it -/
theorem C27_failed_assignment_counterexample :
    let h := run sameFields Heap.empty [.construct .processSpec {}, .construct .materialSpec { process := .obj 0 }, .setProcess 1 .other]
    Field.process.get (h.obj 1) = .obj 0 ∧ (h.obj 0).output = none := by
  decide

/-- C27: a material run whose construction raises (because of its sample type) has already taken the process -/
theorem C27_failed_construction_counterexample :
    let ops : List (Op Nat Nat) := [.construct .processRun {}, .construct .materialRun { process := .obj 0 }]
    let h := run sameFields Heap.empty ops
    let r := step sameFields h (.construct .materialRun { process := .obj 0, bad := true })
    r.2 = .error .valueError ∧ (h.obj 0).output = some 1 ∧ (r.1.obj 0).output = some 2 ∧ Field.process.get (r.1.obj 1) = .obj 0 := by
  decide

/-! ## C30: name and labels of ingredient runs -/

/-- C30: after any history, an ingredient run whose spec is an object has the spec's present name and labels -/
theorem C30_attached (eqv : Heap L N → Nat → Nat → Bool) (ops : List (Op L N)) (r s : Nat)
    (hr : ((run eqv Heap.empty ops).obj r).cls = .ingredientRun) (e : ((run eqv Heap.empty ops).obj r).spec = .obj s) :
    ((run eqv Heap.empty ops).obj s).cls = .ingredientSpec ∧
    nameOf (run eqv Heap.empty ops) r = ((run eqv Heap.empty ops).obj s).name ∧
    labelsOf (run eqv Heap.empty ops) r = ((run eqv Heap.empty ops).obj s).labels := by
  have t : Typed (run eqv (Heap.empty : Heap L N) ops) := typed_run ops typed_empty
  generalize run eqv (Heap.empty : Heap L N) ops = h at t hr e ⊢
  obtain ⟨c, h1, h2⟩ := t.spec r s e
  rw [hr] at h1
  simp only [specType, Option.some.injEq] at h1
  subst h1
  refine ⟨((isA_iff _ _ _).mp h2).2, ?_, ?_⟩
  · simp only [nameOf, hr, if_true, e, h2]
  · simp only [labelsOf, hr, if_true, e, h2]

/-- C30: renaming or relabelling the spec is seen through the run at once -/
theorem C30_renamed (eqv : Heap L N → Nat → Nat → Bool) (ops : List (Op L N)) (r s : Nat) (n : N) (l : List N)
    (hr : ((run eqv Heap.empty ops).obj r).cls = .ingredientRun) (e : ((run eqv Heap.empty ops).obj r).spec = .obj s) :
    nameOf (run eqv Heap.empty (ops ++ [.setName s n])) r = some n ∧
    labelsOf (run eqv Heap.empty (ops ++ [.setLabels s l])) r = some l := by
  have app : ∀ (ops : List (Op L N)) (h : Heap L N) (op), run eqv h (ops ++ [op]) = (step eqv (run eqv h ops) op).1 := by
    intro ops
    induction ops with
    | nil => intro h op; rfl
    | cons o os ih => intro h op; exact ih _ op
  rw [app, app]
  have t : Typed (run eqv (Heap.empty : Heap L N) ops) := typed_run ops typed_empty
  generalize run eqv (Heap.empty : Heap L N) ops = h at t hr e ⊢
  obtain ⟨c, h1, h2⟩ := t.spec r s e
  rw [hr] at h1
  simp only [specType, Option.some.injEq] at h1
  subst h1
  have h3 := (isA_iff _ _ _).mp h2
  have hrs : r ≠ s := by
    intro h'; subst h'; rw [hr] at h3; cases h3.2
  constructor
  · simp only [step, h3.1, if_true, setName, h3.2, reduceCtorEq, if_false]
    have hA : (h.upd s (fun x => { x with name := some n })).isA s .ingredientSpec = true := by
      rw [Same.isA (Same.upd (by intro _; rfl)), h2]
    simp only [nameOf, hA, upd_obj, hrs, if_false, hr, if_true, e]
  · simp only [step, h3.1, if_true, setLabels, h3.2]
    have hA : (h.upd s (fun x => { x with labels := some l })).isA s .ingredientSpec = true := by
      rw [Same.isA (Same.upd (by intro _; rfl)), h2]
    simp only [labelsOf, hA, upd_obj, hrs, if_false, hr, if_true, e]

/-- C30: when the spec is replaced by a link or by None, or when a failing assignment is attempted, the run keeps the name and labels
it had -/
theorem C30_detached (eqv : Heap L N → Nat → Nat → Bool) (ops : List (Op L N)) (r : Nat) (a : Arg L)
    (hr : ((run eqv Heap.empty ops).obj r).cls = .ingredientRun) (ha : ∀ s, a = .obj s → (run eqv Heap.empty ops).isA s .ingredientSpec = false) :
    nameOf (setSpec (run eqv Heap.empty ops) r a).1 r = nameOf (run eqv Heap.empty ops) r ∧
    labelsOf (setSpec (run eqv Heap.empty ops) r a).1 r = labelsOf (run eqv Heap.empty ops) r := by
  have t : Typed (run eqv (Heap.empty : Heap L N) ops) := typed_run ops typed_empty
  generalize run eqv (Heap.empty : Heap L N) ops = h at t hr ha ⊢
  have hacc : ∀ x, accept h .ingredientSpec a = some x → ∀ s, x ≠ .obj s := by
    intro x hx s hs
    subst hs
    have := ha s (accept_arg hx)
    rw [accept_obj hx] at this; cases this
  have st : Same h (storeSpec h r) := same_storeSpec h r
  -- the stored fields after `storeSpec`
  have key : ((storeSpec h r).obj r).name = nameOf h r ∧ ((storeSpec h r).obj r).labels = labelsOf h r ∧
      ((storeSpec h r).obj r).spec = (h.obj r).spec ∧ (∀ i, i ≠ r → (storeSpec h r).obj i = h.obj i) := by
    unfold storeSpec nameOf labelsOf
    simp only [hr, if_true]
    split
    · split
      · refine ⟨by rw [upd_same], by rw [upd_same], by rw [upd_same], fun i hi => upd_other h _ hi⟩
      · exact ⟨rfl, rfl, rfl, fun _ _ => rfl⟩
    · exact ⟨rfl, rfl, rfl, fun _ _ => rfl⟩
  obtain ⟨k1, k2, k3, k4⟩ := key
  simp only [setSpec, hr, specType]
  split
  · rename_i x hx
    have hx' := hacc x hx
    dsimp only
    rw [← k1, ← k2]
    generalize storeSpec h r = h1 at st
    have hc : (h1.obj r).cls = .ingredientRun := by rw [st.2]; exact hr
    unfold nameOf labelsOf
    simp only [upd_same, hc, if_true]
    cases x with
    | none => exact ⟨trivial, trivial⟩
    | link l => exact ⟨trivial, trivial⟩
    | obj s => exact absurd rfl (hx' s)
  · dsimp only
    have hc : ((storeSpec h r).obj r).cls = .ingredientRun := by rw [st.2]; exact hr
    have e1 : nameOf (storeSpec h r) r = nameOf h r := by
      have ex : nameOf (storeSpec h r) r = match (h.obj r).spec with
          | .obj s => if (storeSpec h r).isA s .ingredientSpec then ((storeSpec h r).obj s).name else nameOf h r
          | _ => nameOf h r := by
        rw [← k3, ← k1]; simp only [nameOf, hc, if_true]; cases ((storeSpec h r).obj r).spec <;> rfl
      rw [ex]
      split
      · rename_i s hs
        obtain ⟨c, h1, h2⟩ := t.spec r s hs
        rw [hr] at h1
        simp only [specType, Option.some.injEq] at h1
        subst h1
        have hsr : s ≠ r := by
          intro h'; subst h'
          have := ((isA_iff _ _ _).mp h2).2
          rw [hr] at this; cases this
        rw [st.isA, h2, k4 s hsr]
        simp only [nameOf, hr, if_true, hs, h2]
      · rfl
    have e2 : labelsOf (storeSpec h r) r = labelsOf h r := by
      have ex : labelsOf (storeSpec h r) r = match (h.obj r).spec with
          | .obj s => if (storeSpec h r).isA s .ingredientSpec then ((storeSpec h r).obj s).labels else labelsOf h r
          | _ => labelsOf h r := by
        rw [← k3, ← k2]; simp only [labelsOf, hc, if_true]; cases ((storeSpec h r).obj r).spec <;> rfl
      rw [ex]
      split
      · rename_i s hs
        obtain ⟨c, h1, h2⟩ := t.spec r s hs
        rw [hr] at h1
        simp only [specType, Option.some.injEq] at h1
        subst h1
        have hsr : s ≠ r := by
          intro h'; subst h'
          have := ((isA_iff _ _ _).mp h2).2
          rw [hr] at this; cases this
        rw [st.isA, h2, k4 s hsr]
        simp only [labelsOf, hr, if_true, hs, h2]
      · rfl
    exact ⟨e1, e2⟩

/-- C30: an ingredient run loaded from a dictionary with a link for its spec has the name and labels of the dictionary -/
theorem C30_loaded (eqv : Heap L N → Nat → Nat → Bool) (ops : List (Op L N)) (n : N) (ls : List N) (l : L) :
    let h := run eqv Heap.empty ops
    let r := step eqv h (.construct .ingredientRun { name := some n, labels := some ls, spec := .link l })
    r.2 = .ok () ∧ nameOf r.1 h.next = some n ∧ labelsOf r.1 h.next = some ls := by
  intro h
  simp [step, construct, fresh, Heap.alloc, setSpec, specType, storeSpec, accept, andThen, setTemplate, templateType, setMaterial,
    materialType, setOwner, ownerType, unlinkOwner, linkOwner, setProcess, processType, finish, nameOf, labelsOf, upd_obj]

/-- C30: an assignment to the name or the labels of an ingredient run itself changes the name and labels of no object, after any history;
the former raises -/
theorem C30_unset (eqv : Heap L N → Nat → Nat → Bool) (ops : List (Op L N)) (r : Nat) (n : N) (l : List N)
    (hr : ((run eqv Heap.empty ops).obj r).cls = .ingredientRun) :
    (r < (run eqv Heap.empty ops).next → (step eqv (run eqv Heap.empty ops) (.setName r n)).2 ≠ .ok ()) ∧
    ∀ o, nameOf (step eqv (run eqv Heap.empty ops) (.setName r n)).1 o = nameOf (run eqv Heap.empty ops) o ∧
      labelsOf (step eqv (run eqv Heap.empty ops) (.setLabels r l)).1 o = labelsOf (run eqv Heap.empty ops) o := by
  generalize run eqv (Heap.empty : Heap L N) ops = h at hr ⊢
  constructor
  · intro hn
    simp [step, setName, hr, hn]
  · intro o
    constructor
    · simp only [step, setName, hr, if_true]
      split <;> rfl
    · simp only [step, setLabels, hr, reduceCtorEq, if_false]
      split <;> rfl

example : ((run sameFields (Heap.empty : Heap Nat Nat) [.construct .ingredientRun {}]).obj 0).cls = .ingredientRun ∧
    0 < (run sameFields (Heap.empty : Heap Nat Nat) [.construct .ingredientRun {}]).next := by decide

/-- an ingredient run with a spec that is renamed, and then detached -/
example :
    let ops : List (Op Nat Nat) := [.construct .ingredientSpec { name := some 1, labels := some [7] }, .construct .ingredientRun { spec := .obj 0 },
      .setName 0 2]
    let h := run sameFields Heap.empty ops
    (h.obj 1).cls = .ingredientRun ∧ (h.obj 1).spec = .obj 0 ∧ nameOf h 1 = some 2 ∧
    nameOf (run sameFields Heap.empty (ops ++ [.setSpec 1 .none, .setName 0 3])) 1 = some 2 := by decide

end Verif.Heap
