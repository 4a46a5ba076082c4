import Verif.Model.ValidList
/-!
# C03, C04, C55: validated lists
-/

set_option linter.unusedSectionVars false

namespace Verif.VList
open Verif.Py

variable {α σ : Type}

/-! ## Specification -/

/-- the trigger returns, for an accepted value, None or another accepted value -/
def TriggerSafe (c : Cfg α σ) : Prop :=
  ∀ t, c.trigger = some t → ∀ w a w' b, c.ok a = true → t w a = (w', .ok (some b)) → c.ok b = true

/-- A trigger given by a pure function `f`, made observable by logging each call. -/
def recorder (f : α → Except PyErr (Option α)) : List α → α → List α × Except PyErr (Option α) :=
  fun log a => (log ++ [a], f a)

/-- configuration with content test `ok` and the recording trigger -/
def recCfg (ok : α → Bool) (f : α → Except PyErr (Option α)) : Cfg α (List α) :=
  { ok, trigger := some (recorder f) }

/-- the element stored for `a`: the trigger's answer, or `a` itself when that is None -/
def stored (f : α → Except PyErr (Option α)) (a : α) : α :=
  match f a with
  | .ok (some b) => b
  | _ => a

/-- the trigger does not raise on `a` -/
def fine (f : α → Except PyErr (Option α)) (a : α) : Prop := ∃ r, f a = .ok r

/-! ## Lemmas -/

theorem fire_ok {c : Cfg α σ} (hs : TriggerSafe c) {w w' : σ} {a b : α} (ha : c.ok a = true)
    (h : fire c w a = (w', .ok b)) : c.ok b = true := by
  unfold fire at h
  cases ht : c.trigger with
  | none => rw [ht] at h; simp only [Prod.mk.injEq, Except.ok.injEq] at h; rw [← h.2]; exact ha
  | some t =>
    rw [ht] at h
    simp only at h
    split at h
    · rename_i w'' b' he
      simp only [Prod.mk.injEq, Except.ok.injEq] at h
      rw [← h.2]; exact hs t ht w a w'' b' ha he
    · simp only [Prod.mk.injEq, Except.ok.injEq] at h; rw [← h.2]; exact ha
    · simp at h

theorem fireAll_ok {c : Cfg α σ} (hs : TriggerSafe c) {l bs : List α} {w w' : σ}
    (hl : ∀ a ∈ l, c.ok a = true) (h : fireAll c w l = (w', .ok bs)) : ∀ b ∈ bs, c.ok b = true := by
  induction l generalizing w w' bs with
  | nil => simp only [fireAll, Prod.mk.injEq, Except.ok.injEq] at h; rw [← h.2]; simp
  | cons a l ih =>
    simp only [fireAll] at h
    split at h
    · simp at h
    · rename_i w1 b hf
      split at h
      · rename_i w2 bs' hfa
        simp only [Prod.mk.injEq, Except.ok.injEq] at h
        rw [← h.2]
        intro x hx
        rcases List.mem_cons.mp hx with rfl | hx
        · exact fire_ok hs (hl a (by simp)) hf
        · exact ih (fun y hy => hl y (List.mem_cons_of_mem _ hy)) hfa x hx
      · simp at h

theorem Arg.again_sub (arg : Arg α) : ∀ a ∈ arg.again, a ∈ arg.first := by
  cases arg <;> simp [Arg.again, Arg.first]

theorem init_ok {c : Cfg α σ} (hs : TriggerSafe c) {w w' : σ} {arg : Arg α} {l : List α}
    (h : init c w arg = (w', .ok l)) : ∀ a ∈ l, c.ok a = true := by
  have key : ∀ arg : Arg α, (if validateAll c arg.first = true then fireAll c w arg.again
      else (w, .error .typeError)) = (w', .ok l) → ∀ a ∈ l, c.ok a = true := by
    intro arg h
    split at h
    · rename_i hv
      refine fireAll_ok hs ?_ h
      intro a ha
      exact List.all_eq_true.mp hv a (arg.again_sub a ha)
    · simp at h
  unfold init at h
  split at h
  · simp at h
  · exact key _ h

theorem mem_set_of {l : List α} {n : Nat} {b x : α} (h : x ∈ l.set n b) : x = b ∨ x ∈ l := by
  rcases List.mem_or_eq_of_mem_set h with h | h
  · exact Or.inr h
  · exact Or.inl h

theorem step_ok {c : Cfg α σ} (hs : TriggerSafe c) (w : σ) (l : List α) (op : Op α)
    (hl : ∀ a ∈ l, c.ok a = true) : ∀ a ∈ (step c w l op).2.1, c.ok a = true := by
  cases op with
  | setItem i a =>
    simp only [step, setItem]
    split
    · rename_i hok
      split
      · exact hl
      · rename_i w' b hf
        split
        · intro x hx
          rcases mem_set_of hx with rfl | hx
          · exact fire_ok hs hok hf
          · exact hl x hx
        · exact hl
    · exact hl
  | append a =>
    simp only [step, append]
    split
    · rename_i hok
      split
      · exact hl
      · rename_i w' b hf
        intro x hx
        simp only [List.mem_append, List.mem_singleton] at hx
        rcases hx with hx | rfl
        · exact hl x hx
        · exact fire_ok hs hok hf
    · exact hl
  | extend arg =>
    have key : ∀ arg : Arg α, ∀ a ∈ (if validateAll c arg.first = true then
        (match fireAll c w arg.again with
        | (w', .error e) => (w', l, .error e)
        | (w', .ok bs) => (w', l ++ bs, .ok ()))
        else (w, l, .error .typeError) : Ret α σ).2.1, c.ok a = true := by
      intro arg
      split
      · rename_i hv
        split
        · exact hl
        · rename_i w' bs hf
          intro x hx
          simp only [List.mem_append] at hx
          rcases hx with hx | hx
          · exact hl x hx
          · exact fireAll_ok hs (fun a ha => List.all_eq_true.mp hv a (arg.again_sub a ha)) hf x hx
      · exact hl
    simp only [step, extend]
    split
    · exact hl
    · exact key _
  | insert i a =>
    simp only [step, insert]
    split
    · rename_i hok
      split
      · exact hl
      · rename_i w' b hf
        intro x hx
        simp only [List.mem_append, List.mem_cons] at hx
        rcases hx with hx | rfl | hx
        · exact hl x (List.mem_of_mem_take hx)
        · exact fire_ok hs hok hf
        · exact hl x (List.mem_of_mem_drop hx)
    · exact hl
  | delItem i =>
    simp only [step]
    split
    · intro x hx; exact hl x (List.mem_of_mem_eraseIdx hx)
    · exact hl
  | reverse => intro x hx; simp only [step, List.mem_reverse] at hx; exact hl x hx
  | clear => intro x hx; simp [step] at hx

theorem fire_rec (ok : α → Bool) (f : α → Except PyErr (Option α)) (log : List α) (a : α) :
    fire (recCfg ok f) log a = (log ++ [a], (f a).map (fun _ => stored f a)) := by
  simp only [fire, recCfg, recorder, stored]
  cases h : f a with
  | error e => simp [Except.map]
  | ok r => cases r <;> simp [Except.map]

/-- all calls succeed: all are logged, in order, and each element is replaced by its stored form -/
theorem fireAll_rec_ok (ok : α → Bool) (f : α → Except PyErr (Option α)) (log l : List α)
    (h : ∀ a ∈ l, fine f a) :
    fireAll (recCfg ok f) log l = (log ++ l, .ok (l.map (stored f))) := by
  induction l generalizing log with
  | nil => simp [fireAll]
  | cons a l ih =>
    obtain ⟨r, hr⟩ := h a (by simp)
    simp only [fireAll, fire_rec, hr, Except.map]
    rw [ih _ (fun b hb => h b (List.mem_cons_of_mem _ hb))]
    simp

/-- some call raises: the calls up to the first raising one are logged, and its exception is the outcome -/
theorem fireAll_rec_err (ok : α → Bool) (f : α → Except PyErr (Option α)) (log pre post : List α) (a : α) (e : PyErr)
    (h : ∀ b ∈ pre, fine f b) (ha : f a = .error e) :
    fireAll (recCfg ok f) log (pre ++ a :: post) = (log ++ pre ++ [a], .error e) := by
  induction pre generalizing log with
  | nil => simp [fireAll, fire_rec, ha, Except.map]
  | cons b pre ih =>
    obtain ⟨r, hr⟩ := h b (by simp)
    simp only [List.cons_append, fireAll, fire_rec, hr, Except.map]
    rw [ih _ (fun c hc => h c (List.mem_cons_of_mem _ hc))]
    simp

/-! ## Property theorems -/

/-- C03: whatever is done to a validated list, successfully or not, all its elements are of the accepted types. -/
theorem C03_type_invariant (c : Cfg α σ) (hs : TriggerSafe c) (w w' : σ) (arg : ListArg α) (l : List α)
    (h : validateList c w arg = (w', .ok l)) (ops : List (Op α)) :
    ∀ a ∈ (run c w' l ops).2, c.ok a = true := by
  have h0 : ∀ a ∈ l, c.ok a = true := by
    cases arg with
    | none => exact init_ok (arg := .seq []) hs h
    | single a => exact init_ok (arg := .seq [a]) hs h
    | iter arg => exact init_ok (arg := arg) hs h
  clear h
  induction ops generalizing w' l with
  | nil => exact h0
  | cons op ops ih => exact ih _ _ (step_ok hs w' l op h0)

/-- C03, for the single constructor call: any element that is not accepted makes construction raise TypeError. -/
theorem C03_reject (c : Cfg α σ) (w : σ) (l : List α) (a : α) (ha : a ∈ l) (hbad : c.ok a = false) :
    init c w (.seq l) = (w, .error .typeError) := by
  have : validateAll c l = false := by
    unfold validateAll
    rw [List.all_eq_false]
    exact ⟨a, ha, by simp [hbad]⟩
  simp [init, Arg.first, this]

/-- C04: a mutation that raises leaves the list unchanged (any trigger, any operation, any argument kind). -/
theorem C04_failure_atomic (c : Cfg α σ) (w : σ) (l : List α) (op : Op α) (e : PyErr)
    (h : (step c w l op).2.2 = .error e) : (step c w l op).2.1 = l := by
  cases op <;> simp only [step, setItem, append, extend, insert] at h ⊢ <;> (repeat' split at h) <;> simp_all

/-- C04 for re-iterable arguments: construction yields exactly the supplied elements in stored form, having called the
trigger once on each, in order; it raises exactly when an element is not accepted or a trigger call raises. Missing from the
full claim: one-shot iterators (`C04_oneShot_dropped`). -/
theorem C04_init_partial (ok : α → Bool) (f : α → Except PyErr (Option α)) (log l : List α) :
    ((∀ a ∈ l, ok a = true ∧ fine f a) ∧
        init (recCfg ok f) log (.seq l) = (log ++ l, .ok (l.map (stored f)))) ∨
    ((∃ a ∈ l, ok a = false ∨ ¬ fine f a) ∧ ∃ log' e, init (recCfg ok f) log (.seq l) = (log', .error e)) := by
  by_cases hv : ∀ a ∈ l, ok a = true
  · by_cases hf : ∀ a ∈ l, fine f a
    · left
      refine ⟨fun a ha => ⟨hv a ha, hf a ha⟩, ?_⟩
      have : validateAll (recCfg ok f) l = true := List.all_eq_true.mpr hv
      simp only [init, Arg.first, Arg.again, this, if_true]
      exact fireAll_rec_ok ok f log l hf
    · right
      simp only [Classical.not_forall] at hf
      obtain ⟨a, ha, hna⟩ := hf
      refine ⟨⟨a, ha, Or.inr hna⟩, ?_⟩
      have hval : validateAll (recCfg ok f) l = true := List.all_eq_true.mpr hv
      simp only [init, Arg.first, Arg.again, hval, if_true]
      clear hv hval
      induction l generalizing log with
      | nil => simp at ha
      | cons b l ih =>
        simp only [fireAll, fire_rec]
        cases hb : f b with
        | error e => exact ⟨_, _, rfl⟩
        | ok r =>
          simp only [Except.map]
          have ha' : a ∈ l := by
            rcases List.mem_cons.mp ha with rfl | h
            · exact absurd ⟨r, hb⟩ hna
            · exact h
          obtain ⟨log', e, he⟩ := ih (log ++ [b]) ha'
          rw [he]
          exact ⟨_, _, rfl⟩
  · right
    simp only [Classical.not_forall] at hv
    obtain ⟨a, ha, hna⟩ := hv
    have hna' : ok a = false := by simpa using hna
    exact ⟨⟨a, ha, Or.inl hna'⟩, log, .typeError, C03_reject (recCfg ok f) log l a ha hna'⟩

/-- C04: a successful `append` is the plain append of the stored form; the trigger was called once, on the element. -/
theorem C04_append (ok : α → Bool) (f : α → Except PyErr (Option α)) (log l : List α) (a : α) :
    (ok a = true ∧ fine f a ∧ append (recCfg ok f) log l a = (log ++ [a], l ++ [stored f a], .ok ())) ∨
    (ok a = true ∧ ∃ e, f a = .error e ∧ append (recCfg ok f) log l a = (log ++ [a], l, .error e)) ∨
    (ok a = false ∧ append (recCfg ok f) log l a = (log, l, .error .typeError)) := by
  have hok : (recCfg ok f).ok = ok := rfl
  simp only [append, hok, fire_rec]
  cases h : ok a with
  | false => right; right; exact ⟨by trivial, by simp⟩
  | true =>
    cases hf : f a with
    | error e => right; left; exact ⟨by trivial, e, by trivial, by simp [Except.map]⟩
    | ok r => left; exact ⟨by trivial, ⟨r, hf⟩, by simp [Except.map]⟩

/-- C04: a successful `extend` by a re-iterable argument appends every element in stored form, in order, calling the trigger
once per element; the failing cases change nothing. Missing: one-shot iterators (`C04_oneShot_dropped`). -/
theorem C04_extend_partial (ok : α → Bool) (f : α → Except PyErr (Option α)) (log l new : List α) :
    ((∀ a ∈ new, ok a = true ∧ fine f a) ∧
        extend (recCfg ok f) log l (.seq new) = (log ++ new, l ++ new.map (stored f), .ok ())) ∨
    ((∃ a ∈ new, ok a = false ∨ ¬ fine f a) ∧
        ∃ log' e, extend (recCfg ok f) log l (.seq new) = (log', l, .error e)) := by
  have hinit := C04_init_partial ok f log new
  have hrel : extend (recCfg ok f) log l (.seq new) =
      match init (recCfg ok f) log (.seq new) with
      | (w, .ok bs) => (w, l ++ bs, .ok ())
      | (w, .error e) => (w, l, .error e) := by
    simp only [extend, init]
    split
    · generalize fireAll (recCfg ok f) log (Arg.again (.seq new)) = r
      obtain ⟨r1, r2⟩ := r
      cases r2 <;> rfl
    · rfl
  rw [hrel]
  rcases hinit with ⟨h1, h2⟩ | ⟨h1, log', e, h2⟩
  · left; exact ⟨h1, by rw [h2]⟩
  · right; exact ⟨h1, log', e, by rw [h2]⟩

/-- C04: `insert` at a position inside the list puts the stored form there and keeps everything else. -/
theorem C04_insert (ok : α → Bool) (f : α → Except PyErr (Option α)) (log pre post : List α) (a : α)
    (hok : ok a = true) (hf : fine f a) :
    insert (recCfg ok f) log (pre ++ post) pre.length a = (log ++ [a], pre ++ stored f a :: post, .ok ()) ∧
    (post ≠ [] → insert (recCfg ok f) log (pre ++ post) (-(post.length : Int)) a
      = (log ++ [a], pre ++ stored f a :: post, .ok ())) := by
  obtain ⟨r, hr⟩ := hf
  have h1 : insertPos (pre ++ post).length (pre.length : Int) = pre.length := by
    unfold insertPos; simp
  have h2 : post ≠ [] → insertPos (pre ++ post).length (-(post.length : Int)) = pre.length := by
    intro hne
    have : 0 < post.length := List.length_pos_iff.mpr hne
    unfold insertPos
    rw [if_neg (by omega)]
    simp only [List.length_append]; omega
  have hok' : (recCfg ok f).ok a = true := hok
  constructor
  · simp only [insert, hok', if_true, fire_rec, hr, Except.map, h1]
    simp
  · intro hne
    simp only [insert, hok', if_true, fire_rec, hr, Except.map, h2 hne]
    simp

/-- C04: assignment to an index inside the list (also counted from the end) replaces exactly that element. -/
theorem C04_setItem (ok : α → Bool) (f : α → Except PyErr (Option α)) (log pre post : List α) (old a : α)
    (hok : ok a = true) (hf : fine f a) :
    setItem (recCfg ok f) log (pre ++ old :: post) pre.length a
      = (log ++ [a], pre ++ stored f a :: post, .ok ()) ∧
    setItem (recCfg ok f) log (pre ++ old :: post) (-(post.length : Int) - 1) a
      = (log ++ [a], pre ++ stored f a :: post, .ok ()) := by
  obtain ⟨r, hr⟩ := hf
  have h1 : normIdx (pre ++ old :: post).length (pre.length : Int) = some pre.length := by
    unfold normIdx; simp
  have h2 : normIdx (pre ++ old :: post).length (-(post.length : Int) - 1) = some pre.length := by
    unfold normIdx
    rw [if_neg (by omega), if_pos (by simp only [List.length_append, List.length_cons]; omega)]
    congr 1
    simp only [List.length_append, List.length_cons]; omega
  have hok' : (recCfg ok f).ok a = true := hok
  constructor
  · simp only [setItem, hok', if_true, fire_rec, hr, Except.map, h1]
    simp
  · simp only [setItem, hok', if_true, fire_rec, hr, Except.map, h2]
    simp

/-- C04: slice assignment with an accepted container calls the trigger on the container, and its elements take the place of the slice. A container that is not accepted is a
TypeError, and so is one that (in stored form) cannot be iterated; the list is then unchanged. -/
theorem C04_setSlice (ok : α → Bool) (f : α → Except PyErr (Option α)) (asList : α → Option (List α)) (log pre mid post : List α) (a : α) :
    (ok a = true → fine f a → ∀ bs, asList (stored f a) = some bs →
      setSlice (recCfg ok f) asList log (pre ++ mid ++ post) pre.length (pre.length + mid.length) a = (log ++ [a], pre ++ bs ++ post, .ok ())) ∧
    (ok a = true → fine f a → asList (stored f a) = none →
      setSlice (recCfg ok f) asList log (pre ++ mid ++ post) pre.length (pre.length + mid.length) a = (log ++ [a], pre ++ mid ++ post, .error .typeError)) ∧
    (∀ e, ok a = true → f a = .error e →
      setSlice (recCfg ok f) asList log (pre ++ mid ++ post) pre.length (pre.length + mid.length) a = (log ++ [a], pre ++ mid ++ post, .error e)) ∧
    (ok a = false →
      setSlice (recCfg ok f) asList log (pre ++ mid ++ post) pre.length (pre.length + mid.length) a = (log, pre ++ mid ++ post, .error .typeError)) := by
  have hok : (recCfg ok f).ok = ok := rfl
  refine ⟨?_, ?_, ?_, ?_⟩
  · rintro h1 ⟨r, hr⟩ bs hb
    have hs : stored f a = r.getD a := by cases r <;> simp [stored, hr]
    rw [hs] at hb
    have e1 : (pre ++ mid ++ post).take pre.length = pre := by simp
    have e2 : (pre ++ mid ++ post).drop (pre.length + mid.length) = post := by
      rw [← List.length_append]; simp
    simp only [setSlice, hok, h1, if_true, fire_rec, hr, Except.map, hs, hb, e1, e2]
  · rintro h1 ⟨r, hr⟩ hb
    have hs : stored f a = r.getD a := by cases r <;> simp [stored, hr]
    rw [hs] at hb
    simp only [setSlice, hok, h1, if_true, fire_rec, hr, Except.map, hs, hb]
  · intro e h1 hr
    simp only [setSlice, hok, h1, if_true, fire_rec, hr, Except.map]
  · intro h1
    simp [setSlice, hok, h1]

/-- C04: what is refused, and how: an element that is not accepted raises TypeError before the trigger is called; if the trigger raises then its exception comes out; an index
outside the list raises IndexError, but only after the trigger was called. `extend` and `+=` refuse what cannot be iterated with TypeError. -/
theorem C04_raises (ok : α → Bool) (f : α → Except PyErr (Option α)) (log l : List α) (i : Int) (a : α) :
    (ok a = false → insert (recCfg ok f) log l i a = (log, l, .error .typeError) ∧ setItem (recCfg ok f) log l i a = (log, l, .error .typeError)) ∧
    (∀ e, ok a = true → f a = .error e → insert (recCfg ok f) log l i a = (log ++ [a], l, .error e) ∧ setItem (recCfg ok f) log l i a = (log ++ [a], l, .error e)) ∧
    (ok a = true → fine f a → (i < -(l.length : Int) ∨ (l.length : Int) ≤ i) → setItem (recCfg ok f) log l i a = (log ++ [a], l, .error .indexError)) ∧
    extend (recCfg ok f) log l .notIterable = (log, l, .error .typeError) ∧ init (recCfg ok f) log .notIterable = (log, .error .typeError) ∧
    iadd l .notIterable = (l, .error .typeError) := by
  have hok : (recCfg ok f).ok = ok := rfl
  refine ⟨fun h => by simp [insert, setItem, hok, h], ?_, ?_, rfl, rfl, rfl⟩
  · intro e h1 hr
    simp only [insert, setItem, hok, h1, if_true, fire_rec, hr, Except.map, and_self]
  · rintro h1 ⟨r, hr⟩ hi
    have hn : normIdx l.length i = none := by
      unfold normIdx
      split
      · rw [if_neg (by omega)]
      · rw [if_neg (by omega)]
    simp only [setItem, hok, h1, if_true, fire_rec, hr, Except.map, hn]

/-- C04: `insert` beyond either end puts the element at that end. -/
theorem C04_insert_outside (ok : α → Bool) (f : α → Except PyErr (Option α)) (log l : List α) (i : Int) (a : α) (hok : ok a = true) (hf : fine f a) :
    ((l.length : Int) ≤ i → insert (recCfg ok f) log l i a = (log ++ [a], l ++ [stored f a], .ok ())) ∧
    (i ≤ -(l.length : Int) → i < 0 → insert (recCfg ok f) log l i a = (log ++ [a], stored f a :: l, .ok ())) := by
  obtain ⟨r, hr⟩ := hf
  have hs : stored f a = r.getD a := by cases r <;> simp [stored, hr]
  have hok' : (recCfg ok f).ok a = true := hok
  constructor
  · intro h
    have : insertPos l.length i = l.length := by unfold insertPos; rw [if_pos (by omega)]; omega
    simp only [insert, hok', if_true, fire_rec, hr, Except.map, this, hs]
    simp
  · intro h h'
    have : insertPos l.length i = 0 := by unfold insertPos; rw [if_neg (by omega)]; omega
    simp only [insert, hok', if_true, fire_rec, hr, Except.map, this, hs]
    simp

/-- C04: how construction and `extend` fail: with TypeError and without calling the trigger if an element is not accepted; otherwise with the exception of the first trigger call
that raises, those before it having been called. -/
theorem C04_first_failure (ok : α → Bool) (f : α → Except PyErr (Option α)) (log l new : List α) :
    ((∃ a ∈ new, ok a = false) → init (recCfg ok f) log (.seq new) = (log, .error .typeError) ∧ extend (recCfg ok f) log l (.seq new) = (log, l, .error .typeError)) ∧
    ∀ pre a post e, new = pre ++ a :: post → (∀ b ∈ new, ok b = true) → (∀ b ∈ pre, fine f b) → f a = .error e →
      init (recCfg ok f) log (.seq new) = (log ++ pre ++ [a], .error e) ∧ extend (recCfg ok f) log l (.seq new) = (log ++ pre ++ [a], l, .error e) := by
  constructor
  · rintro ⟨a, ha, hb⟩
    have : validateAll (recCfg ok f) new = false := by
      unfold validateAll
      rw [List.all_eq_false]
      exact ⟨a, ha, by simp [recCfg, hb]⟩
    simp [init, extend, Arg.first, this]
  · rintro pre a post e rfl hok hpre ha
    have hv : validateAll (recCfg ok f) (pre ++ a :: post) = true := List.all_eq_true.mpr hok
    have hf : ∀ log, fireAll (recCfg ok f) log (pre ++ a :: post) = (log ++ pre ++ [a], .error e) := by
      clear hok hv
      induction pre with
      | nil => intro log; simp [fireAll, fire_rec, ha, Except.map]
      | cons b pre ih =>
        intro log
        obtain ⟨r, hr⟩ := hpre b (by simp)
        simp only [List.cons_append, fireAll, fire_rec, hr, Except.map]
        rw [ih (fun c hc => hpre c (by simp [hc]))]
        simp
    simp [init, extend, Arg.first, Arg.again, hv, hf]

/-- C04 fails for one-shot iterators: whatever acceptable elements a generator yields, `extend` reports success and adds
nothing, and construction gives the empty list. -/
theorem C04_oneShot_dropped (c : Cfg α σ) (w : σ) (l new : List α) (hok : ∀ a ∈ new, c.ok a = true) :
    extend c w l (.oneShot new) = (w, l, .ok ()) ∧ init c w (.oneShot new) = (w, .ok []) := by
  have h : validateAll c new = true := List.all_eq_true.mpr hok
  simp [extend, init, Arg.first, Arg.again, h, fireAll]

/-- C03 fails for `+=`: it stores an element of any type. -/
theorem C03_iadd_counterexample :
    ∃ (c : Cfg Nat Unit) (l : List Nat), init c () (.seq [2]) = ((), .ok l) ∧ TriggerSafe c ∧
      ∃ a ∈ (iadd l (.seq [3])).1, c.ok a = false :=
  ⟨{ ok := fun n => n % 2 == 0, trigger := none }, [2], rfl, by intro t h; simp at h, 3, by simp [iadd, Arg.first], rfl⟩

/-- C03 fails for slice assignment when lists are themselves accepted elements: the elements of the assigned list are
stored without being validated. (Elements: `inl` = a list object, `inr` = anything else; only lists are accepted.) -/
theorem C03_slice_counterexample :
    ∃ (c : Cfg (Nat ⊕ Nat) Unit) (asList : Nat ⊕ Nat → Option (List (Nat ⊕ Nat))),
      TriggerSafe c ∧ (setSlice c asList () [.inl 0] 0 1 (.inl 7)).2.2 = .ok () ∧
      ∃ a ∈ (setSlice c asList () [.inl 0] 0 1 (.inl 7)).2.1, c.ok a = false :=
  ⟨{ ok := fun x => x.isLeft, trigger := none }, fun | .inl 7 => some [.inr 1] | _ => none,
    by intro t h; simp at h, rfl, .inr 1, by simp [setSlice, fire], rfl⟩

/-- C55: `validate_list` of None, one object, or a container gives the validated list of exactly those elements. Missing:
one-shot iterators. -/
theorem C55_validate_list_partial (ok : α → Bool) (f : α → Except PyErr (Option α)) (log : List α) :
    validateList (recCfg ok f) log .none = (log, .ok []) ∧
    (∀ a, ok a = true → fine f a → validateList (recCfg ok f) log (.single a) = (log ++ [a], .ok [stored f a])) ∧
    (∀ l, (∀ a ∈ l, ok a = true ∧ fine f a) →
      validateList (recCfg ok f) log (.iter (.seq l)) = (log ++ l, .ok (l.map (stored f)))) ∧
    (∀ a, ok a = false → validateList (recCfg ok f) log (.single a) = (log, .error .typeError)) := by
  refine ⟨by simp [validateList, init, Arg.first, Arg.again, validateAll, fireAll], ?_, ?_, ?_⟩
  · intro a h1 h2
    rcases C04_init_partial ok f log [a] with ⟨-, h⟩ | ⟨⟨b, hb, hbad⟩, -⟩
    · exact h
    · simp only [List.mem_singleton] at hb
      subst hb
      rcases hbad with h | h
      · rw [h1] at h; cases h
      · exact absurd h2 h
  · intro l hl
    rcases C04_init_partial ok f log l with ⟨-, h⟩ | ⟨⟨b, hb, hbad⟩, -⟩
    · exact h
    · rcases hbad with h | h
      · rw [(hl b hb).1] at h; cases h
      · exact absurd (hl b hb).2 h
  · intro a h
    exact C03_reject (recCfg ok f) log [a] a (by simp) h

/-- C55: `validate_str` returns exactly the strings, unchanged, and raises TypeError on everything else. -/
theorem C55_validate_str {Obj Str : Type} (asStr : Obj → Option Str) (o : Obj) :
    (∀ s, validateStr asStr o = .ok s ↔ asStr o = some s) ∧
    (validateStr asStr o = .error .typeError ↔ asStr o = none) := by
  unfold validateStr
  cases asStr o <;> simp

/-! ## Non-vacuity -/

/-- a trigger that replaces, keeps, or raises -/
def demoTrigger : Nat → Except PyErr (Option Nat) := fun n =>
  if n = 4 then .error .valueError else if n = 2 then .ok (some 10) else .ok none

example : init (recCfg (fun n => n % 2 == 0) demoTrigger) [] (.seq [2, 6]) = ([2, 6], .ok [10, 6]) := by
  simp [init, Arg.first, Arg.again, recCfg, validateAll, fireAll, fire, recorder, demoTrigger]

example : TriggerSafe (recCfg (fun n => n % 2 == 0) demoTrigger) := by
  intro t ht w a w' b ha h
  simp only [recCfg, Option.some.injEq] at ht
  subst ht
  simp only [recorder, demoTrigger, Prod.mk.injEq] at h
  have h2 := h.2
  split at h2
  · simp at h2
  · split at h2
    · simp only [Except.ok.injEq, Option.some.injEq] at h2; subst h2; rfl
    · simp at h2

example : (step (recCfg (fun n => n % 2 == 0) demoTrigger) [] [8] (.extend (.seq [2, 4]))).2.2
    = .error .valueError := by
  simp [step, extend, Arg.first, Arg.again, recCfg, validateAll, fireAll, fire, recorder, demoTrigger]

end Verif.VList
