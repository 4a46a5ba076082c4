import Verif.Model.Cache
/-!
# C15: unit caches never return stale answers. C52: type-check caching is transparent
-/

namespace Verif.Cache
open Verif.Py

variable {K V : Type}

/-! ## The cache -/

theorem take_spec (eqv : K → K → Bool) (c : LRU K V) (k : K) :
    match LRU.take eqv c k with
    | some (e, rest) => e ∈ c ∧ eqv e.1 k = true ∧ rest.length + 1 = c.length ∧ ∀ x ∈ rest, x ∈ c
    | none => ∀ e ∈ c, eqv e.1 k = false := by
  induction c with
  | nil => simp [LRU.take]
  | cons e c ih =>
    simp only [LRU.take]
    by_cases h : eqv e.1 k = true
    · simp only [h, if_true]
      exact ⟨by simp, trivial, by simp, fun x hx => List.mem_cons_of_mem _ hx⟩
    · simp only [h, if_false, Bool.false_eq_true]
      cases ht : LRU.take eqv c k with
      | none =>
        simp only [ht] at ih ⊢
        intro x hx
        rcases List.mem_cons.mp hx with rfl | hx
        · simpa using h
        · exact ih x hx
      | some r =>
        obtain ⟨e', rest⟩ := r
        simp only [ht] at ih ⊢
        refine ⟨List.mem_cons_of_mem _ ih.1, ih.2.1, by simp [ih.2.2.1], ?_⟩
        intro x hx
        rcases List.mem_cons.mp hx with rfl | hx
        · simp
        · exact List.mem_cons_of_mem _ (ih.2.2.2 x hx)

/-- every stored result is what the function answers for the stored key -/
def Current (f : K → Except PyErr V) (c : LRU K V) : Prop := ∀ e ∈ c, f e.1 = .ok e.2

/-- keys that Python considers equal get answers related by `R` -/
def Respects (eqv : K → K → Bool) (f : K → Except PyErr V) (R : V → V → Prop) : Prop :=
  ∀ k k' v, eqv k k' = true → f k = .ok v → ∃ v', f k' = .ok v' ∧ R v v'

/-- outcomes agree: the same exception, or results related by `R` -/
def Agree (R : V → V → Prop) : Except PyErr V → Except PyErr V → Prop
  | .ok v, .ok v' => R v v'
  | .error e, .error e' => e = e'
  | _, _ => False

theorem call_spec (eqv : K → K → Bool) (n : Nat) (f : K → Except PyErr V) (R : V → V → Prop) (hR : ∀ v, R v v)
    (hf : Respects eqv f R) (c : LRU K V) (hc : Current f c) (k : K) :
    Current f (LRU.call eqv n f c k).1 ∧ Agree R (LRU.call eqv n f c k).2 (f k) := by
  have hs := take_spec eqv c k
  unfold LRU.call
  cases ht : LRU.take eqv c k with
  | some r =>
    obtain ⟨e, rest⟩ := r
    simp only [ht] at hs ⊢
    constructor
    · intro x hx
      rcases List.mem_append.mp hx with hx | hx
      · exact hc x (hs.2.2.2 x hx)
      · rw [List.mem_singleton.mp hx]; exact hc e hs.1
    · obtain ⟨v', h1, h2⟩ := hf e.1 k e.2 hs.2.1 (hc e hs.1)
      rw [h1]; exact h2
  | none =>
    simp only
    cases hk : f k with
    | error e => exact ⟨hc, rfl⟩
    | ok v =>
      simp only
      split
      · exact ⟨hc, hR v⟩
      · split
        · refine ⟨?_, hR v⟩
          intro x hx
          rcases List.mem_append.mp hx with hx | hx
          · exact hc x (List.mem_of_mem_drop hx)
          · rw [List.mem_singleton.mp hx]; exact hk
        · refine ⟨?_, hR v⟩
          intro x hx
          rcases List.mem_append.mp hx with hx | hx
          · exact hc x hx
          · rw [List.mem_singleton.mp hx]; exact hk

theorem call_length (eqv : K → K → Bool) (n : Nat) (f : K → Except PyErr V) (c : LRU K V) (hc : c.length ≤ n) (k : K) :
    (LRU.call eqv n f c k).1.length ≤ n := by
  have hs := take_spec eqv c k
  unfold LRU.call
  cases ht : LRU.take eqv c k with
  | some r =>
    obtain ⟨e, rest⟩ := r
    simp only [ht] at hs ⊢
    simp only [List.length_append, List.length_singleton]
    omega
  | none =>
    simp only
    cases hk : f k with
    | error e => exact hc
    | ok v =>
      simp only
      split
      · exact hc
      · split
        · simp only [List.length_append, List.length_drop, List.length_singleton]; omega
        · simp only [List.length_append, List.length_singleton]; omega

/-! ## C15 -/

variable {Reg KC VC KP VP KB VB : Type}

/-- Specification: the module without caches. Each call is answered from the definitions in force; a change of definitions
that fails leaves them in force. -/
def uncached (fns : UnitFns Reg KC VC KP VP KB VB) (reg : Reg) : List (UOp Reg KC KP KB) → List (UOut VC VP VB)
  | [] => []
  | .convert k :: os => .convert (fns.convert reg k) :: uncached fns reg os
  | .parse k :: os => .parse (fns.parse reg k) :: uncached fns reg os
  | .base k :: os => .base (fns.base reg k) :: uncached fns reg os
  | .change (.ok r) :: os => .done (.ok ()) :: uncached fns r os
  | .change (.error e) :: os => .done (.error e) :: uncached fns reg os
  | .clear :: os => .done (.ok ()) :: uncached fns reg os
  | .install r :: os => .done (.ok ()) :: uncached fns r os

/-- no definitions are installed without the caches being cleared (every `change_definitions_file` runs as a whole) -/
def Whole (ops : List (UOp Reg KC KP KB)) : Prop := ∀ o ∈ ops, ∀ r, o ≠ .install r

/-- observations agree, results up to the given relations -/
def OutAgree (RC : VC → VC → Prop) (RP : VP → VP → Prop) (RB : VB → VB → Prop) : UOut VC VP VB → UOut VC VP VB → Prop
  | .convert a, .convert b => Agree RC a b
  | .parse a, .parse b => Agree RP a b
  | .base a, .base b => Agree RB a b
  | .done a, .done b => a = b
  | _, _ => False

/-- observations agree position by position -/
def AllAgree (RC : VC → VC → Prop) (RP : VP → VP → Prop) (RB : VB → VB → Prop) :
    List (UOut VC VP VB) → List (UOut VC VP VB) → Prop
  | [], [] => True
  | a :: as, b :: bs => OutAgree RC RP RB a b ∧ AllAgree RC RP RB as bs
  | _, _ => False

/-- all three caches hold current answers -/
def Fresh (fns : UnitFns Reg KC VC KP VP KB VB) (s : Units Reg KC VC KP VP KB VB) : Prop :=
  Current (fns.convert s.reg) s.cConvert ∧ Current (fns.parse s.reg) s.cParse ∧ Current (fns.base s.reg) s.cBase

/-- C15. For every history of conversions, parses, base-unit queries and changes of the definitions file (successful or
not), for all cache sizes: what is observed is what the module without caches answers. Results agree up to relations that
hold between the answers to arguments Python considers equal. -/
theorem C15_no_stale (fns : UnitFns Reg KC VC KP VP KB VB) (eq : KeyEqs KC KP KB) (n : Sizes)
    (RC : VC → VC → Prop) (RP : VP → VP → Prop) (RB : VB → VB → Prop)
    (hRC : ∀ v, RC v v) (hRP : ∀ v, RP v v) (hRB : ∀ v, RB v v)
    (hc : ∀ r, Respects eq.convert (fns.convert r) RC) (hp : ∀ r, Respects eq.parse (fns.parse r) RP)
    (hb : ∀ r, Respects eq.base (fns.base r) RB)
    (reg : Reg) (ops : List (UOp Reg KC KP KB)) (hw : Whole ops) :
    AllAgree RC RP RB (urun fns eq n { reg := reg, cConvert := [], cParse := [], cBase := [] } ops).2 (uncached fns reg ops) := by
  have key : ∀ s : Units Reg KC VC KP VP KB VB, Fresh fns s →
      AllAgree RC RP RB (urun fns eq n s ops).2 (uncached fns s.reg ops) := by
    induction ops with
    | nil => intro s _; exact trivial
    | cons o os ih =>
      intro s hs
      have hw' : Whole os := fun o ho => hw o (List.mem_cons_of_mem _ ho)
      cases o with
      | convert k =>
        have := call_spec eq.convert n.convert (fns.convert s.reg) RC hRC (hc _) s.cConvert hs.1 k
        exact ⟨this.2, ih hw' { s with cConvert := _ } ⟨this.1, hs.2.1, hs.2.2⟩⟩
      | parse k =>
        have := call_spec eq.parse n.parse (fns.parse s.reg) RP hRP (hp _) s.cParse hs.2.1 k
        exact ⟨this.2, ih hw' { s with cParse := _ } ⟨hs.1, this.1, hs.2.2⟩⟩
      | base k =>
        have := call_spec eq.base n.base (fns.base s.reg) RB hRB (hb _) s.cBase hs.2.2 k
        exact ⟨this.2, ih hw' { s with cBase := _ } ⟨hs.1, hs.2.1, this.1⟩⟩
      | change load =>
        have h0 : ∀ r, Fresh fns ({ reg := r, cConvert := [], cParse := [], cBase := [] } : Units Reg KC VC KP VP KB VB) :=
          fun r => ⟨by intro e he; simp at he, by intro e he; simp at he, by intro e he; simp at he⟩
        cases load with
        | ok r => exact ⟨rfl, ih hw' _ (h0 r)⟩
        | error e => exact ⟨rfl, ih hw' _ (h0 s.reg)⟩
      | clear =>
        exact ⟨rfl, ih hw' { s with cConvert := [], cParse := [], cBase := [] }
          ⟨by intro e he; simp at he, by intro e he; simp at he, by intro e he; simp at he⟩⟩
      | install r => exact absurd rfl (hw _ (by simp) r)
  exact key _ ⟨by intro e he; simp at he, by intro e he; simp at he, by intro e he; simp at he⟩

/-- keys equal only if identical -/
def exactKeys [DecidableEq KC] [DecidableEq KP] [DecidableEq KB] : KeyEqs KC KP KB :=
  { convert := fun a b => decide (a = b), parse := fun a b => decide (a = b), base := fun a b => decide (a = b) }

/-- C15, when equal keys are identical (strings, and numbers all of one type): the observations are exactly those without
caches. -/
theorem C15_no_stale_exact [DecidableEq KC] [DecidableEq KP] [DecidableEq KB] (fns : UnitFns Reg KC VC KP VP KB VB) (n : Sizes)
    (reg : Reg) (ops : List (UOp Reg KC KP KB)) (hw : Whole ops) :
    (urun fns exactKeys n { reg := reg, cConvert := [], cParse := [], cBase := [] } ops).2 = uncached fns reg ops := by
  have h := C15_no_stale fns exactKeys n Eq Eq Eq (fun _ => rfl) (fun _ => rfl) (fun _ => rfl)
    (fun r k k' v e h => ⟨v, by rw [← of_decide_eq_true e]; exact h, rfl⟩)
    (fun r k k' v e h => ⟨v, by rw [← of_decide_eq_true e]; exact h, rfl⟩)
    (fun r k k' v e h => ⟨v, by rw [← of_decide_eq_true e]; exact h, rfl⟩) reg ops hw
  have agree : ∀ {T : Type} (a b : Except PyErr T), Agree Eq a b → a = b := by
    intro T a b h
    cases a <;> cases b <;> simp_all [Agree]
  have all : ∀ a b : List (UOut VC VP VB), AllAgree Eq Eq Eq a b → a = b := by
    intro a
    induction a with
    | nil => intro b h; cases b with | nil => rfl | cons => exact absurd h (by simp [AllAgree])
    | cons x xs ih =>
      intro b h
      cases b with
      | nil => exact absurd h (by simp [AllAgree])
      | cons y ys =>
        obtain ⟨h1, h2⟩ := h
        rw [ih ys h2]
        congr 1
        cases x <;> cases y <;>
          first | exact False.elim h1 | exact congrArg _ (agree _ _ h1) | exact congrArg _ h1
  exact all _ _ h

/-- C15: the caches never hold more entries than their sizes. -/
theorem C15_bounded (fns : UnitFns Reg KC VC KP VP KB VB) (eq : KeyEqs KC KP KB) (n : Sizes) (reg : Reg)
    (ops : List (UOp Reg KC KP KB)) :
    let s := (urun fns eq n { reg := reg, cConvert := [], cParse := [], cBase := [] } ops).1
    s.cConvert.length ≤ n.convert ∧ s.cParse.length ≤ n.parse ∧ s.cBase.length ≤ n.base := by
  have key : ∀ s : Units Reg KC VC KP VP KB VB,
      s.cConvert.length ≤ n.convert ∧ s.cParse.length ≤ n.parse ∧ s.cBase.length ≤ n.base →
      (urun fns eq n s ops).1.cConvert.length ≤ n.convert ∧ (urun fns eq n s ops).1.cParse.length ≤ n.parse ∧
        (urun fns eq n s ops).1.cBase.length ≤ n.base := by
    induction ops with
    | nil => intro s h; exact h
    | cons o os ih =>
      intro s h
      apply ih
      cases o with
      | convert k => exact ⟨call_length _ _ _ _ h.1 k, h.2⟩
      | parse k => exact ⟨h.1, call_length _ _ _ _ h.2.1 k, h.2.2⟩
      | base k => exact ⟨h.1, h.2.1, call_length _ _ _ _ h.2.2 k⟩
      | change load => cases load <;> simp [ustep]
      | clear => simp [ustep]
      | install r => exact h
  exact key _ (by simp)

section witness

/-- a Python number with its type -/
inductive Num where
  | int (n : Int) | float (n : Int)
  deriving DecidableEq

/-- Python's `==` on (integral) numbers ignores the type -/
def Num.eqv : Num → Num → Bool
  | .int a, .int b => a == b
  | .int a, .float b => a == b
  | .float a, .int b => a == b
  | .float a, .float b => a == b

/-- a toy unit system: two units, the registry gives the factor from unit `true` to unit `false`; as in units/impl.py:279-280
equal units return the argument itself -/
def toy : UnitFns Int (Num × Bool × Bool) Num Unit Unit Unit Unit :=
  { convert := fun r k => if k.2.1 = k.2.2 then .ok k.1 else
      match k.1 with
      | .int n => .ok (.float (if k.2.1 then n * r else n))
      | .float n => .ok (.float (if k.2.1 then n * r else n))
    parse := fun _ _ => .ok ()
    base := fun _ _ => .ok () }

def toyEq : KeyEqs (Num × Bool × Bool) Unit Unit :=
  { convert := fun a b => a.1.eqv b.1 && a.2 == b.2, parse := fun _ _ => true, base := fun _ _ => true }

/-- C15 up to Python equality only: the cached answer may have another type than the one computed afresh. The cache is
keyed by `==`, so `convert_units(1, u, u)` followed by `convert_units(1.0, u, u)` returns the int 1. -/
theorem C15_type_counterexample :
    ∃ ops, Whole ops ∧
      (urun toy toyEq gemdSizes { reg := 2, cConvert := [], cParse := [], cBase := [] } ops).2 ≠ uncached toy 2 ops := by
  refine ⟨[.convert (.int 1, true, true), .convert (.float 1, true, true)], by simp [Whole], ?_⟩
  intro h
  simp only [urun, ustep, uncached, toy, LRU.call, LRU.take, toyEq, gemdSizes] at h
  simp only [List.cons.injEq, UOut.convert.injEq] at h
  exact absurd h.2.1 (by decide)

/-- C15 fails if another thread converts while the definitions file is being changed: the caches are cleared before the new
registry is in place, so an answer computed in between stays in the cache. -/
theorem C15_interleaving_counterexample :
    (urun toy toyEq gemdSizes { reg := 2, cConvert := [], cParse := [], cBase := [] }
      [.clear, .convert (.float 1, true, false), .install 3, .convert (.float 1, true, false)]).2.getLast?
      = some (.convert (.ok (.float 2))) ∧
    (uncached toy 2 [.clear, .convert (.float 1, true, false), .install 3, .convert (.float 1, true, false)]).getLast?
      = some (.convert (.ok (.float 3))) := ⟨rfl, rfl⟩

/-- the hypotheses of `C15_no_stale` can be met by functions for which the order of calls matters, and with entries evicted -/
example : ∀ r, Respects toyEq.convert (toy.convert r) (fun a b => a.eqv b = true) := by
  rintro r ⟨a, u, v⟩ ⟨b, u', v'⟩ w h hk
  simp only [toyEq, Bool.and_eq_true, beq_iff_eq, Prod.mk.injEq] at h
  obtain ⟨h1, rfl, rfl⟩ := h
  simp only [toy] at hk ⊢
  split at hk
  · simp only [Except.ok.injEq] at hk; subst hk
    exact ⟨b, by simp_all, h1⟩
  · rename_i hne
    simp only [hne, if_false]
    cases a <;> cases b <;> simp_all [Num.eqv] <;> (subst hk; simp)

example : (urun toy toyEq { convert := 1, parse := 0, base := 0 } { reg := 2, cConvert := [], cParse := [], cBase := [] }
    [.convert (.float 1, true, false), .convert (.float 2, true, false), .change (.error .other),
     .change (.ok 3), .convert (.float 1, true, false)]).1.cConvert = [((.float 1, true, false), .float 3)] := rfl

end witness

/-! ## C52 -/

/-- Specification of `isinstance(o, a)`: the classes named, from left to right, up to the first non-class -/
inductive Named (C : Type) where
  | cls (c : C) | notClass

mutual
/-- the leaves of a (nested) tuple, in order -/
def leaves {C : Type} : ClassArg C → List (Named C)
  | .cls c => [.cls c]
  | .notClass => [.notClass]
  | .tuple l => leavesAll l
def leavesAll {C : Type} : List (ClassArg C) → List (Named C)
  | [] => []
  | a :: l => leaves a ++ leavesAll l
end

/-- the answer of `isinstance` for an object of class `c` -/
def isinstanceSpec {C : Type} (sub : C → C → Bool) (c : C) : List (Named C) → Except PyErr Bool
  | [] => .ok false
  | .cls d :: l => if sub c d then .ok true else isinstanceSpec sub c l
  | .notClass :: _ => .error .typeError

theorem isinstanceSpec_append {C : Type} (sub : C → C → Bool) (c : C) (l m : List (Named C)) :
    isinstanceSpec sub c (l ++ m) = match isinstanceSpec sub c l with
      | .ok false => isinstanceSpec sub c m
      | r => r := by
  induction l with
  | nil => rfl
  | cons x l ih =>
    cases x with
    | notClass => rfl
    | cls d =>
      simp only [List.cons_append, isinstanceSpec, ih]
      split <;> rfl

mutual
theorem issubclass_spec {C : Type} (sub : C → C → Bool) (c : C) (a : ClassArg C) :
    issubclass sub c a = isinstanceSpec sub c (leaves a) := by
  cases a with
  | cls d => cases h : sub c d <;> simp [issubclass, leaves, isinstanceSpec, h]
  | notClass => rfl
  | tuple l => simp only [issubclass, leaves]; exact issubclassAny_spec sub c l
theorem issubclassAny_spec {C : Type} (sub : C → C → Bool) (c : C) (l : List (ClassArg C)) :
    issubclassAny sub c l = isinstanceSpec sub c (leavesAll l) := by
  cases l with
  | nil => rfl
  | cons a l =>
    simp only [issubclassAny, leavesAll, isinstanceSpec_append, issubclass_spec sub c a]
    cases h : isinstanceSpec sub c (leaves a) with
    | error e => rfl
    | ok b => cases b with
      | true => rfl
      | false => exact issubclassAny_spec sub c l
end

/-- C52 for histories in which no abstract base class gains a virtual subclass: for every cache size, the answers are those of
`isinstance`. Missing: `ABCMeta.register` between two checks (`C52_register_counterexample`). -/
theorem C52_transparent_partial {O C : Type} (eqv : C × ClassArg C → C × ClassArg C → Bool)
    (heq : ∀ a b, eqv a b = true → a = b) (size : Nat) (typ : O → C) (sub : C → C → Bool) (checks : List (O × ClassArg C)) :
    irun eqv size typ sub [] (checks.map (fun p => .check p.1 p.2))
      = checks.map (fun p => isinstanceSpec sub (typ p.1) (leaves p.2)) := by
  have key : ∀ c : LRU (C × ClassArg C) Bool, Current (fun k => issubclass sub k.1 k.2) c →
      irun eqv size typ sub c (checks.map (fun p => .check p.1 p.2))
        = checks.map (fun p => isinstanceSpec sub (typ p.1) (leaves p.2)) := by
    induction checks with
    | nil => intro c _; rfl
    | cons p ps ih =>
      intro c hc
      obtain ⟨h1, h2⟩ := call_spec eqv size (fun k : C × ClassArg C => issubclass sub k.1 k.2) Eq (fun _ => rfl)
        (fun k k' v e h => ⟨v, by rw [← heq _ _ e]; exact h, rfl⟩) c hc (typ p.1, p.2)
      simp only [List.map_cons, irun, cachedIsinstance]
      rw [ih _ h1, ← issubclass_spec]
      congr 1
      revert h2
      generalize (LRU.call eqv size (fun k : C × ClassArg C => issubclass sub k.1 k.2) c (typ p.1, p.2)).2 = a
      generalize issubclass sub (typ p.1) p.2 = b
      cases a <;> cases b <;> simp [Agree]
  exact key [] (by intro e he; simp at he)

/-- C52 read literally is false: after a class has been registered with an abstract base class, the cached answer is stale. -/
theorem C52_register_counterexample :
    irun (fun (a b : Bool × ClassArg Bool) => a.1 == b.1 && (match a.2, b.2 with | .cls c, .cls d => c == d | _, _ => false))
      1024 (fun o : Bool => o) (fun a b => a == b) []
      [.check true (.cls false), .register (fun _ _ => true), .check true (.cls false)]
      = [.ok false, .ok false] ∧
    isinstanceSpec (fun _ _ => true) true (leaves (.cls false)) = .ok true := ⟨rfl, rfl⟩

/-- hypotheses of `C52_transparent_partial` met, on a nested tuple -/
example : irun (fun a b => decide (a.1 = b.1) && (match a.2, b.2 with | .cls c, .cls d => decide (c = d) | _, _ => false)) 2 (fun o : Nat => o)
    (fun a b => a == b) [] ([(1, ClassArg.cls 1), (1, .tuple [.cls 0, .tuple [.cls 1], .notClass]), (2, .tuple [.cls 0, .notClass])].map
      (fun p => .check p.1 p.2)) = [.ok true, .ok true, .error .typeError] := rfl

end Verif.Cache
