import Verif.Props.EqualIso
/-!
# The bounds on nested calls in the model of `==` only matter for whether there is an answer
-/
set_option linter.unusedSimpArgs false
set_option linter.unusedSectionVars false
set_option linter.unusedVariables false

namespace Verif.Equal
open Verif.Py Verif.Value

/-- an answer stays the same -/
def Le {α : Type} (r r' : Option α) : Prop := r = none ∨ r = r'

theorem Le.refl {α : Type} (r : Option α) : Le r r := Or.inr rfl
theorem Le.none {α : Type} (r : Option α) : Le none r := Or.inl rfl

theorem Le.next {α β : Type} {r r' : Run α} {f f' : α → Cache → Run β} (h : Le r r') (hf : ∀ a c, Le (f a c) (f' a c)) : Le (r.next f) (r'.next f') := by
  rcases h with rfl | rfl
  · exact Le.none _
  · match r with
    | Option.none => exact Le.none _
    | some (.error e) => exact Le.refl _
    | some (.ok (a, c)) => exact hf a c

theorem Le.plain {β : Type} {r r' : Plain} {f f' : Bool → Run β} (h : Le r r') (hf : ∀ b, Le (f b) (f' b)) : Le (r.next f) (r'.next f') := by
  rcases h with rfl | rfl
  · exact Le.none _
  · match r with
    | Option.none => exact Le.none _
    | some (.error e) => exact Le.refl _
    | some (.ok b) => exact hf b

theorem Le.and {p p' q q' : Plain} (hp : Le p p') (hq : Le q q') : Le (p.and q) (p'.and q') := by
  rcases hp with rfl | rfl
  · exact Le.none _
  · match p with
    | Option.none => exact Le.none _
    | some (.error e) => exact Le.refl _
    | some (.ok true) => exact hq
    | some (.ok false) => exact Le.refl _

section
variable {U : Nat → List (String × String)} {D : Nat → List (String × V)} {eqv eqv' : V → V → Plain}
  {rec rec' : Cache → Nat → Nat → Run (Option Bool)} (he : ∀ v w, Le (eqv v w) (eqv' v w)) (hr : ∀ c x y, Le (rec c x y) (rec' c x y))
include he hr

omit he in
theorem candidates_mono (x : Nat) : ∀ (ys : List V) (i : Nat) (found : Option Bool) (c : Cache), Le (candidates rec x ys i found c) (candidates rec' x ys i found c) := by
  intro ys
  induction ys with
  | nil => intro i found c; exact Le.refl _
  | cons y ys ih =>
    intro i found c
    cases y <;> simp only [candidates]
    case ref y =>
      refine Le.next (hr c x y) ?_
      intro r c'
      rcases r with _ | _ | _
      · exact ih _ _ _
      · exact ih _ _ _
      · exact Le.refl _
    case link => exact ih _ _ _
    case obj => exact ih _ _ _
    all_goals exact Le.refl _

omit hr in
theorem isIn_mono (x : V) (c : Cache) : ∀ (ys : List V), Le (isIn eqv x c ys) (isIn eqv' x c ys) := by
  intro ys
  induction ys with
  | nil => exact Le.refl _
  | cons y ys ih =>
    simp only [isIn]
    refine Le.plain (he y x) ?_
    intro b
    cases b
    · exact ih
    · exact Le.refl _

theorem crawl_mono : ∀ (xs ys : List V) (c : Cache), Le (crawl eqv rec xs ys c) (crawl eqv' rec' xs ys c) := by
  intro xs
  induction xs with
  | nil => intro ys c; exact Le.refl _
  | cons x xs ih =>
    intro ys c
    have plain : Le ((isIn eqv x c ys).next fun b c' => if b then crawl eqv rec xs ys c' else some (.ok (false, c')))
        ((isIn eqv' x c ys).next fun b c' => if b then crawl eqv' rec' xs ys c' else some (.ok (false, c'))) := by
      refine Le.next (isIn_mono he x c ys) ?_
      intro b c'
      cases b
      · exact Le.refl _
      · exact ih ys c'
    cases x <;> simp only [crawl]
    case ref x =>
      refine Le.next (candidates_mono hr x ys 0 _ c) ?_
      rintro ⟨found, i⟩ c'
      rcases found with _ | _ | _
      · exact ih _ _
      · exact Le.refl _
      · exact ih _ _
    all_goals exact plain

theorem compareValue_mono (ua ub : Bool) (v w : V) (c : Cache) : Le (compareValue eqv rec ua ub v w c) (compareValue eqv' rec' ua ub v w c) := by
  have other : Le (compareOther eqv rec ua ub v w c) (compareOther eqv' rec' ua ub v w c) := by
    unfold compareOther
    split
    · unfold compareLists
      split
      · exact Le.refl _
      · exact crawl_mono he hr _ _ c
    · exact Le.plain (he v w) (fun b => Le.refl _)
  cases v with
  | ref x =>
    cases w with
    | ref y =>
      simp only [compareValue]
      exact Le.next (hr c x y) (fun r c' => Le.refl _)
    | _ => exact other
  | _ => cases w <;> exact other

theorem compareFields_mono (ua ub : Bool) (d' : List (String × V)) : ∀ (fs : List (String × V)) (c : Cache),
    Le (compareFields eqv rec ua ub d' fs c) (compareFields eqv' rec' ua ub d' fs c) := by
  intro fs
  induction fs with
  | nil => intro c; exact Le.refl _
  | cons f fs ih =>
    intro c
    obtain ⟨k, v⟩ := f
    simp only [compareFields]
    split
    · exact Le.refl _
    · refine Le.next (compareValue_mono he hr ua ub v _ c) ?_
      intro b c'
      cases b
      · exact Le.refl _
      · exact ih c'

theorem body_mono (c : Cache) (a b : Nat) : Le (body U D eqv rec c a b) (body U D eqv' rec' c a b) := by
  simp only [body]
  split
  · exact Le.refl _
  · split
    · exact Le.refl _
    · split
      · exact Le.refl _
      · exact Le.next (compareFields_mono he hr _ _ _ _ _) (fun r c' => Le.refl _)
end

theorem cachedEquals_mono {U : Nat → List (String × String)} {D : Nat → List (String × V)} {eqv eqv' : V → V → Plain}
    (he : ∀ v w, Le (eqv v w) (eqv' v w)) : ∀ (n n' : Nat), n ≤ n' → ∀ c a b, Le (cachedEquals U D eqv n c a b) (cachedEquals U D eqv' n' c a b) := by
  intro n
  induction n with
  | zero => intro n' _ c a b; exact Le.none _
  | succ n ih =>
    intro n' hn c a b
    cases n' with
    | zero => omega
    | succ n' => exact body_mono he (ih n' (by omega)) c a b

section
variable {U : Nat → List (String × String)} {ent ent' : Nat → Nat → Plain} (h : ∀ x y, Le (ent x y) (ent' x y))
include h

mutual
theorem eqV_mono (v w : V) : Le (eqV U ent v w) (eqV U ent' v w) := by
  cases v with
  | list l =>
    cases w with
    | list l' =>
      simp only [eqV]
      split
      · exact eqVs_mono l l'
      · exact Le.refl _
    | _ => simp only [eqV]; exact Le.refl _
  | tuple l =>
    cases w with
    | tuple l' =>
      simp only [eqV]
      split
      · exact eqVs_mono l l'
      · exact Le.refl _
    | link s i => unfold eqV; split <;> first | exact Le.refl _ | simp_all
    | ref o => unfold eqV; split <;> first | exact Le.refl _ | simp_all
    | _ => simp only [eqV]; exact Le.refl _
  | dict ks vs =>
    cases w with
    | dict ks' vs' =>
      simp only [eqV]
      split
      · exact eqItems_mono ks' vs' ks vs
      · exact Le.refl _
    | _ => simp only [eqV]; exact Le.refl _
  | obj t ns vs =>
    cases w with
    | obj t' ns' vs' =>
      simp only [eqV]
      split
      · exact eqAttrs_mono ns' vs' ns vs
      · exact Le.refl _
    | _ => simp only [eqV]; exact Le.refl _
  | ref o =>
    cases w with
    | ref p =>
      simp only [eqV]
      split
      · exact Le.refl _
      · exact h o p
    | tuple l => unfold eqV; split <;> first | exact Le.refl _ | simp_all
    | _ => simp only [eqV]; exact Le.refl _
  | link s i =>
    cases w with
    | tuple l => unfold eqV; split <;> first | exact Le.refl _ | simp_all
    | _ => simp only [eqV]; exact Le.refl _
  | none => cases w <;> simp only [eqV] <;> exact Le.refl _
  | str s => cases w <;> simp only [eqV] <;> exact Le.refl _
  | bool => simp only [eqV]; exact Le.refl _
  | int => simp only [eqV]; exact Le.refl _
  | float => simp only [eqV]; exact Le.refl _
termination_by structural v
theorem eqVs_mono (l l' : List V) : Le (eqVs U ent l l') (eqVs U ent' l l') := by
  cases l with
  | nil => simp only [eqVs]; exact Le.refl _
  | cons v vs =>
    cases l' with
    | nil => simp only [eqVs]; exact Le.refl _
    | cons w ws => simp only [eqVs]; exact Le.and (eqV_mono v w) (eqVs_mono vs ws)
termination_by structural l
theorem eqItems_mono (ks' vs' ks vs : List V) : Le (eqItems U ent ks' vs' ks vs) (eqItems U ent' ks' vs' ks vs) := by
  cases vs with
  | nil => cases ks <;> simp only [eqItems] <;> exact Le.refl _
  | cons v vs =>
    cases ks with
    | nil => simp only [eqItems]; exact Le.refl _
    | cons k ks =>
      simp only [eqItems]
      split
      · exact Le.and (eqV_mono v _) (eqItems_mono ks' vs' ks vs)
      · exact Le.refl _
termination_by structural vs
theorem eqAttrs_mono (ks' : List String) (vs' : List V) (ks : List String) (vs : List V) : Le (eqAttrs U ent ks' vs' ks vs) (eqAttrs U ent' ks' vs' ks vs) := by
  cases vs with
  | nil => cases ks <;> simp only [eqAttrs] <;> exact Le.refl _
  | cons v vs =>
    cases ks with
    | nil => simp only [eqAttrs]; exact Le.refl _
    | cons k ks =>
      simp only [eqAttrs]
      split
      · exact Le.and (eqV_mono v _) (eqAttrs_mono ks' vs' ks vs)
      · exact Le.refl _
termination_by structural vs
end
end

/-- larger bounds do not change an answer -/
theorem equals_mono {U : Nat → List (String × String)} {D : Nat → List (String × V)} {n n' : Nat} (hn : n ≤ n') :
    ∀ {k k' : Nat}, k ≤ k' → ∀ a b, Le (equals U D n k a b) (equals U D n' k' a b) := by
  intro k
  induction k with
  | zero => intro k' _ a b; exact Le.none _
  | succ k ih =>
    intro k' hk a b
    cases k' with
    | zero => omega
    | succ k' =>
      have := cachedEquals_mono (U := U) (D := D) (eqV_mono (U := U) (ih (k' := k') (by omega))) n n' hn [] a b
      simp only [equals, entityEq]
      rcases this with h | h
      · rw [h]; exact Le.none _
      · rw [h]; exact Le.refl _

/-- The result of `a == b`: an answer or an exception, for some bounds. -/
def Result (U : Nat → List (String × String)) (D : Nat → List (String × V)) (a b : Nat) (r : Except PyErr Bool) : Prop := ∃ n k, equals U D n k a b = some r

/-- there is only one -/
theorem result_unique {U : Nat → List (String × String)} {D : Nat → List (String × V)} {a b : Nat} {r r' : Except PyErr Bool} (h : Result U D a b r)
    (h' : Result U D a b r') : r = r' := by
  obtain ⟨n, k, h⟩ := h
  obtain ⟨n', k', h'⟩ := h'
  have h1 := equals_mono (U := U) (D := D) (Nat.le_max_left n n') (Nat.le_max_left k k') a b
  have h2 := equals_mono (U := U) (D := D) (Nat.le_max_right n n') (Nat.le_max_right k k') a b
  rw [h] at h1
  rw [h'] at h2
  rcases h1 with h1 | h1
  · cases h1
  · rcases h2 with h2 | h2
    · cases h2
    · rw [← h1] at h2; cases h2; rfl

end Verif.Equal
