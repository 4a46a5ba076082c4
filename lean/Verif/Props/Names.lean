import Verif.Props.Links
/-!
# C30: the name and the labels that an object is made with
-/
set_option linter.unusedSimpArgs false

namespace Verif.Heap
open Verif.Py
variable {L N : Type}

/-- class, name and labels stay -/
def Keeps3 (x y : Obj L N) : Prop := y.cls = x.cls ∧ y.name = x.name ∧ y.labels = x.labels

theorem Keeps3.refl (x : Obj L N) : Keeps3 x x := ⟨rfl, rfl, rfl⟩
theorem Keeps3.trans {x y z : Obj L N} (h : Keeps3 x y) (g : Keeps3 y z) : Keeps3 x z := ⟨g.1.trans h.1, g.2.1.trans h.2.1, g.2.2.trans h.2.2⟩

local macro "keep" : tactic => `(tactic| (dsimp only [Keeps3, Heap.upd]; repeat' split) <;> exact ⟨rfl, rfl, rfl⟩)

theorem setSpec_same (h : Heap L N) (o q : Nat) (a : Arg L) (hc : (h.obj o).cls ≠ .ingredientRun) : Keeps3 (h.obj q) ((setSpec h o a).1.obj q) := by
  have e : storeSpec h o = h := by unfold storeSpec; rw [if_neg hc]
  unfold setSpec
  split
  · exact .refl _
  · split
    · rw [e]; keep
    · rw [e]; exact .refl _

theorem setTemplate_same (h : Heap L N) (o q : Nat) (a : Arg L) : Keeps3 (h.obj q) ((setTemplate h o a).1.obj q) := by
  unfold setTemplate
  split
  · exact .refl _
  · split
    · keep
    · exact .refl _

theorem setMaterial_same (h : Heap L N) (o q : Nat) (a : Arg L) : Keeps3 (h.obj q) ((setMaterial h o a).1.obj q) := by
  unfold setMaterial
  split
  · exact .refl _
  · split
    · keep
    · exact .refl _

theorem setOwner_same (eqv : Heap L N → Nat → Nat → Bool) (h : Heap L N) (o q : Nat) (a : Arg L) : Keeps3 (h.obj q) ((setOwner eqv h o a).1.obj q) := by
  unfold setOwner
  split
  · exact .refl _
  · rename_i c _
    split
    · exact .refl _
    · rename_i h1 hu
      have s1 : Keeps3 (h.obj q) (h1.obj q) := by
        unfold unlinkOwner at hu
        split at hu
        · split at hu
          · rw [Option.map_eq_some_iff] at hu
            obtain ⟨l, -, rfl⟩ := hu
            keep
          · cases hu; exact .refl _
        · cases hu; exact .refl _
      split
      · exact s1
      · refine s1.trans ?_
        unfold linkOwner
        split
        · keep
        · keep

theorem setProcess_same (h : Heap L N) (o q : Nat) (a : Arg L) : Keeps3 (h.obj q) ((setProcess h o a).1.obj q) := by
  have s1 : ∀ c, Keeps3 (h.obj q) ((unlinkProcess h o c).obj q) := by
    intro c
    unfold unlinkProcess
    split
    · split
      · keep
      · exact .refl _
    · exact .refl _
  unfold setProcess
  split
  · exact .refl _
  · split
    · exact s1 _
    · rename_i c _ _ _ _
      refine (s1 c).trans ?_
      unfold linkProcess
      split
      · keep
      · keep

theorem andThen_same (r : Ret L N) (f : Heap L N → Ret L N) (q : Nat) (x : Obj L N) (h : Keeps3 x (r.1.obj q)) (hf : Keeps3 x (r.1.obj q) → Keeps3 x ((f r.1).1.obj q)) :
    Keeps3 x ((andThen r f).1.obj q) := by
  obtain ⟨h', e⟩ := r
  cases e with
  | ok _ => exact hf h
  | error _ => exact h

/-- C30: an object other than an ingredient run has, whether its constructor returns or raises, the name it was made with; an ingredient spec has the labels it was made with, none if
none were given. -/
theorem C30_made (eqv : Heap L N → Nat → Nat → Bool) (ops : List (Op L N)) (c : Cls) (hc : c ≠ .ingredientRun) (a : CtorArgs L N) :
    let h := run eqv Heap.empty ops
    let h' := run eqv Heap.empty (ops ++ [.construct c a])
    (h'.obj h.next).cls = c ∧ (h'.obj h.next).name = a.name ∧
    (c = .ingredientSpec → (∀ l, a.labels = some l → (h'.obj h.next).labels = some l) ∧ (a.labels = none → (h'.obj h.next).labels = some [])) ∧
    (c ≠ .ingredientSpec → (h'.obj h.next).labels = none) := by
  intro h h'
  have e : h' = (construct eqv h c a).1 := by
    have : ∀ (ops : List (Op L N)) (g : Heap L N), run eqv g (ops ++ [.construct c a]) = (construct eqv (run eqv g ops) c a).1 := by
      intro ops
      induction ops with
      | nil => intro g; rfl
      | cons op ops ih => intro g; exact ih _
    exact this ops _
  have hs : Keeps3 (fresh c a) (h'.obj h.next) := by
    rw [e]
    unfold construct
    have h0 : (h.alloc (fresh c a)).obj h.next = fresh c a := by simp [Heap.alloc]
    refine andThen_same _ _ _ _ ?_ fun s1 => andThen_same _ _ _ _ ?_ fun s2 => andThen_same _ _ _ _ ?_ fun s3 => andThen_same _ _ _ _ ?_ fun s4 => andThen_same _ _ _ _ ?_ fun s5 => ?_
    · have := setSpec_same (h.alloc (fresh c a)) h.next h.next a.spec (by rw [h0]; exact hc)
      rwa [h0] at this
    · split
      · exact s1
      · exact s1.trans (setTemplate_same _ _ _ _)
    · exact s2.trans (setMaterial_same _ _ _ _)
    · exact s3.trans (setOwner_same _ _ _ _ _)
    · exact s4.trans (setProcess_same _ _ _ _)
    · unfold finish
      split
      · exact s5
      · exact s5
  refine ⟨hs.1, hs.2.1.trans (by simp [fresh, hc]), fun hi => ⟨fun l hl => hs.2.2.trans (by simp [fresh, hi, hl]), fun hl => hs.2.2.trans (by simp [fresh, hi, hl])⟩,
    fun hi => hs.2.2.trans (by simp [fresh, hi])⟩

example : ((run (fun _ _ _ => false) (Heap.empty : Heap Nat Nat) [.construct .ingredientSpec { name := some 1, labels := some [7] }]).obj 0).labels = some [7] ∧
    ((run (fun _ _ _ => false) (Heap.empty : Heap Nat Nat) [.construct .processRun { name := some 1, labels := some [7] }]).obj 0).labels = none := by decide

end Verif.Heap
