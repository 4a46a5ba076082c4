import Verif.Props.EqualMono
/-!
# The comparison only looks at what can be reached from the two entities
-/
set_option linter.unusedSimpArgs false
set_option linter.unusedSectionVars false
set_option linter.unusedVariables false

namespace Verif.Equal
open Verif.Py Verif.Value

/-- every entity in the value is in the set -/
def Within (S : Nat → Prop) (v : V) : Prop := ∀ p, V.ref p ∈ v.subs → S p

theorem Within.mem {S : Nat → Prop} {l : List V} {x : V} (h : ∀ p, V.ref p ∈ subss l → S p) (hx : x ∈ l) : Within S x :=
  fun p hp => h p (mem_subss.mpr ⟨x, hx, hp⟩)

section
variable {U U' : Nat → List (String × String)} {ent ent' : Nat → Nat → Plain} {S : Nat → Prop}
  (hU : ∀ o, S o → U o = U' o) (he : ∀ x y, S x → S y → ent x y = ent' x y)
include hU he

omit he in
theorem carries_cong {o : Nat} (ho : S o) (s i : String) : carries U o s i = carries U' o s i := by
  unfold carries
  rw [hU o ho]

mutual
theorem eqV_cong (v w : V) (hv : Within S v) (hw : Within S w) : eqV U ent v w = eqV U' ent' v w := by
  cases v with
  | list l =>
    cases w with
    | list l' =>
      simp only [eqV]
      rw [eqVs_cong l l' (fun p hp => hv p (by simp only [V.subs, List.mem_cons]; exact .inr hp)) (fun p hp => hw p (by simp only [V.subs, List.mem_cons]; exact .inr hp))]
    | _ => simp only [eqV]
  | tuple l =>
    cases w with
    | tuple l' =>
      simp only [eqV]
      rw [eqVs_cong l l' (fun p hp => hv p (by simp only [V.subs, List.mem_cons]; exact .inr hp)) (fun p hp => hw p (by simp only [V.subs, List.mem_cons]; exact .inr hp))]
    | link s i => unfold eqV; split <;> first | rfl | simp_all
    | ref o =>
      have hc : ∀ s i, carries U o s i = carries U' o s i := fun s i => carries_cong hU (hw o (self_mem_subs _)) s i
      unfold eqV
      split <;> simp_all
    | _ => simp only [eqV]
  | dict ks vs =>
    cases w with
    | dict ks' vs' =>
      simp only [eqV]
      rw [eqItems_cong ks' vs' ks vs (fun p hp => hv p (by simp only [V.subs, List.mem_cons, List.mem_append]; exact .inr (.inr hp)))
        (fun p hp => hw p (by simp only [V.subs, List.mem_cons, List.mem_append]; exact .inr (.inr hp)))]
    | _ => simp only [eqV]
  | obj t ns vs =>
    cases w with
    | obj t' ns' vs' =>
      simp only [eqV]
      rw [eqAttrs_cong ns' vs' ns vs (fun p hp => hv p (by simp only [V.subs, List.mem_cons]; exact .inr hp))
        (fun p hp => hw p (by simp only [V.subs, List.mem_cons]; exact .inr hp))]
    | _ => simp only [eqV]
  | ref o =>
    have hc : ∀ s i, carries U o s i = carries U' o s i := fun s i => carries_cong hU (hv o (self_mem_subs _)) s i
    cases w with
    | ref p =>
      simp only [eqV]
      rw [he o p (hv o (self_mem_subs _)) (hw p (self_mem_subs _))]
    | tuple l => unfold eqV; split <;> simp_all
    | _ => simp only [eqV, hc]
  | link s i =>
    cases w with
    | tuple l => unfold eqV; split <;> first | rfl | simp_all
    | ref o => simp only [eqV, carries_cong hU (hw o (self_mem_subs _)) s i]
    | _ => simp only [eqV]
  | none => cases w <;> simp only [eqV]
  | str s => cases w <;> simp only [eqV]
  | bool => simp only [eqV]
  | int => simp only [eqV]
  | float => simp only [eqV]
termination_by structural v
theorem eqVs_cong (l l' : List V) (hv : ∀ p, V.ref p ∈ subss l → S p) (hw : ∀ p, V.ref p ∈ subss l' → S p) : eqVs U ent l l' = eqVs U' ent' l l' := by
  cases l with
  | nil => simp only [eqVs]
  | cons v vs =>
    cases l' with
    | nil => simp only [eqVs]
    | cons w ws =>
      simp only [eqVs]
      rw [eqV_cong v w (fun p hp => hv p (by simp [subss, hp])) (fun p hp => hw p (by simp [subss, hp])),
        eqVs_cong vs ws (fun p hp => hv p (by simp [subss, hp])) (fun p hp => hw p (by simp [subss, hp]))]
termination_by structural l
theorem eqItems_cong (ks' vs' ks vs : List V) (hv : ∀ p, V.ref p ∈ subss vs → S p) (hw : ∀ p, V.ref p ∈ subss vs' → S p) :
    eqItems U ent ks' vs' ks vs = eqItems U' ent' ks' vs' ks vs := by
  cases vs with
  | nil => cases ks <;> simp only [eqItems]
  | cons v vs =>
    cases ks with
    | nil => simp only [eqItems]
    | cons k ks =>
      simp only [eqItems]
      split
      · rename_i w hg
        rw [eqV_cong v w (fun p hp => hv p (by simp [subss, hp])) (Within.mem hw (List.of_mem_zip (Dict.mem_of_get? hg)).2),
          eqItems_cong ks' vs' ks vs (fun p hp => hv p (by simp [subss, hp])) hw]
      · rfl
termination_by structural vs
theorem eqAttrs_cong (ks' : List String) (vs' : List V) (ks : List String) (vs : List V) (hv : ∀ p, V.ref p ∈ subss vs → S p) (hw : ∀ p, V.ref p ∈ subss vs' → S p) :
    eqAttrs U ent ks' vs' ks vs = eqAttrs U' ent' ks' vs' ks vs := by
  cases vs with
  | nil => cases ks <;> simp only [eqAttrs]
  | cons v vs =>
    cases ks with
    | nil => simp only [eqAttrs]
    | cons k ks =>
      simp only [eqAttrs]
      split
      · rename_i w hg
        rw [eqV_cong v w (fun p hp => hv p (by simp [subss, hp])) (Within.mem hw (List.of_mem_zip (Dict.mem_of_get? hg)).2),
          eqAttrs_cong ks' vs' ks vs (fun p hp => hv p (by simp [subss, hp])) hw]
      · rfl
termination_by structural vs
end
end

section
variable {eqv eqv' : V → V → Plain} {rec rec' : Cache → Nat → Nat → Run (Option Bool)} {S : Nat → Prop}
  (he : ∀ v w, Within S v → Within S w → eqv v w = eqv' v w) (hr : ∀ c x y, S x → S y → rec c x y = rec' c x y)
include he hr

omit he in
theorem candidates_cong (x : Nat) (hx : S x) : ∀ (ys : List V) (i : Nat) (found : Option Bool) (c : Cache), (∀ y ∈ ys, Within S y) →
    candidates rec x ys i found c = candidates rec' x ys i found c := by
  intro ys
  induction ys with
  | nil => intro i found c _; rfl
  | cons y ys ih =>
    intro i found c hys
    have ih := fun i found c => ih i found c (fun z hz => hys z (List.mem_cons_of_mem _ hz))
    cases y <;> simp only [candidates]
    case ref y =>
      rw [hr c x y hx (hys _ List.mem_cons_self y (self_mem_subs _))]
      congr 1
      funext r c'
      rcases r with _ | _ | _
      · exact ih _ _ _
      · exact ih _ _ _
      · rfl
    case link => exact ih _ _ _
    case obj => exact ih _ _ _

omit hr in
theorem isIn_cong (x : V) (hx : Within S x) (c : Cache) : ∀ (ys : List V), (∀ y ∈ ys, Within S y) → isIn eqv x c ys = isIn eqv' x c ys := by
  intro ys
  induction ys with
  | nil => intro _; rfl
  | cons y ys ih =>
    intro hys
    simp only [isIn]
    rw [he y x (hys _ List.mem_cons_self) hx]
    congr 1
    funext b
    cases b
    · exact ih (fun z hz => hys z (List.mem_cons_of_mem _ hz))
    · rfl

theorem crawl_cong : ∀ (xs ys : List V) (c : Cache), (∀ x ∈ xs, Within S x) → (∀ y ∈ ys, Within S y) → crawl eqv rec xs ys c = crawl eqv' rec' xs ys c := by
  intro xs
  induction xs with
  | nil => intro ys c _ _; rfl
  | cons x xs ih =>
    intro ys c hxs hys
    have ih := fun ys c hys => ih ys c (fun z hz => hxs z (List.mem_cons_of_mem _ hz)) hys
    have hx := hxs x List.mem_cons_self
    have plain : ((isIn eqv x c ys).next fun b c' => if b then crawl eqv rec xs ys c' else some (.ok (false, c'))) =
        ((isIn eqv' x c ys).next fun b c' => if b then crawl eqv' rec' xs ys c' else some (.ok (false, c'))) := by
      rw [isIn_cong he x hx c ys hys]
      congr 1
      funext b c'
      rw [ih ys c' hys]
    cases x <;> simp only [crawl]
    case ref x =>
      rw [candidates_cong hr x (hx x (self_mem_subs _)) ys 0 _ c hys]
      congr 1
      funext r c'
      obtain ⟨found, i⟩ := r
      rcases found with _ | _ | _
      · exact ih _ _ hys
      · rfl
      · exact ih _ _ (fun y hy => hys y (List.mem_of_mem_eraseIdx hy))
    all_goals exact plain

theorem compareValue_cong (ua ub : Bool) (v w : V) (c : Cache) (hv : Within S v) (hw : Within S w) :
    compareValue eqv rec ua ub v w c = compareValue eqv' rec' ua ub v w c := by
  have other : compareOther eqv rec ua ub v w c = compareOther eqv' rec' ua ub v w c := by
    unfold compareOther
    split
    · rename_i l l' hl hl'
      unfold compareLists
      split
      · rfl
      · exact crawl_cong he hr _ _ c (fun x hx p hp => hv p (mem_subs_of_iter hl hx hp)) (fun x hx p hp => hw p (mem_subs_of_iter hl' hx hp))
    · rw [he v w hv hw]
  cases v with
  | ref x =>
    cases w with
    | ref y =>
      simp only [compareValue]
      rw [hr c x y (hv x (self_mem_subs _)) (hw y (self_mem_subs _))]
    | _ => exact other
  | _ => cases w <;> exact other

theorem compareFields_cong (ua ub : Bool) (d' : List (String × V)) (hd' : ∀ e ∈ d', Within S e.2) : ∀ (fs : List (String × V)) (c : Cache), (∀ e ∈ fs, Within S e.2) →
    compareFields eqv rec ua ub d' fs c = compareFields eqv' rec' ua ub d' fs c := by
  intro fs
  induction fs with
  | nil => intro c _; rfl
  | cons f fs ih =>
    intro c hfs
    obtain ⟨k, v⟩ := f
    simp only [compareFields]
    split
    · rfl
    · rename_i w hg
      rw [compareValue_cong he hr ua ub v w c (hfs _ List.mem_cons_self) (hd' _ (Dict.mem_of_get? hg))]
      congr 1
      funext b c'
      rw [ih c' (fun e he => hfs e (List.mem_cons_of_mem _ he))]

theorem body_cong {U U' : Nat → List (String × String)} {D D' : Nat → List (String × V)} (hU : ∀ o, S o → U o = U' o) (hD : ∀ o, S o → D o = D' o)
    (hS : ∀ o, S o → ∀ e ∈ D o, Within S e.2) (c : Cache) (a b : Nat) (ha : S a) (hb : S b) : body U D eqv rec c a b = body U' D' eqv' rec' c a b := by
  simp only [body]
  rw [← hD a ha, ← hD b hb, ← hU a ha, ← hU b hb, compareFields_cong he hr _ _ _ (hS b hb) _ _ (hS a ha)]
end

theorem cachedEquals_cong {U U' : Nat → List (String × String)} {D D' : Nat → List (String × V)} {S : Nat → Prop} {eqv eqv' : V → V → Plain}
    (he : ∀ v w, Within S v → Within S w → eqv v w = eqv' v w) (hU : ∀ o, S o → U o = U' o) (hD : ∀ o, S o → D o = D' o)
    (hS : ∀ o, S o → ∀ e ∈ D o, Within S e.2) : ∀ (n : Nat) c a b, S a → S b → cachedEquals U D eqv n c a b = cachedEquals U' D' eqv' n c a b := by
  intro n
  induction n with
  | zero => intro c a b _ _; rfl
  | succ n ih => intro c a b ha hb; exact body_cong he ih hU hD hS c a b ha hb

/-- the comparison of two entities of a set that is closed under reference does not depend on what is outside -/
theorem equals_cong {U U' : Nat → List (String × String)} {D D' : Nat → List (String × V)} {S : Nat → Prop} (hU : ∀ o, S o → U o = U' o)
    (hD : ∀ o, S o → D o = D' o) (hS : ∀ o, S o → ∀ e ∈ D o, Within S e.2) (n : Nat) : ∀ (k : Nat) a b, S a → S b → equals U D n k a b = equals U' D' n k a b := by
  intro k
  induction k with
  | zero => intro a b _ _; rfl
  | succ k ih =>
    intro a b ha hb
    simp only [equals, entityEq]
    rw [cachedEquals_cong (fun v w hv hw => eqV_cong hU ih v w hv hw) hU hD hS n [] a b ha hb]

end Verif.Equal
