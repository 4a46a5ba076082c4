import Verif.Props.Equal
import Verif.Props.Greedy
/-!
# C33, C34: equality of entities, continued
-/
set_option linter.unusedSimpArgs false
set_option linter.unusedSectionVars false
set_option linter.unusedVariables false

namespace Verif.Equal
open Verif.Py Verif.Value

/-! ## What a comparison that ends normally leaves in the cache -/

/-- if the computation ends normally, then with this result -/
def Post {α : Type} (r : Run α) (Q : α → Cache → Prop) : Prop := ∀ a c, r = some (.ok (a, c)) → Q a c

theorem Post.next {α β : Type} {r : Run α} {f : α → Cache → Run β} {Q : α → Cache → Prop} {Q' : β → Cache → Prop} (h : Post r Q)
    (hf : ∀ a c, Q a c → Post (f a c) Q') : Post (r.next f) Q' := by
  intro b c e
  match r, h with
  | none, _ => cases e
  | some (.error _), _ => cases e
  | some (.ok (a, c1)), h => exact hf a c1 (h a c1 rfl) b c e

theorem Post.plain {β : Type} {r : Plain} {f : Bool → Run β} {Q' : β → Cache → Prop} (hf : ∀ b, r = some (.ok b) → Post (f b) Q') :
    Post (r.next f) Q' := by
  intro b c e
  match r, hf with
  | none, _ => cases e
  | some (.error _), _ => cases e
  | some (.ok a), h => exact h a rfl b c e

theorem Post.ok {α : Type} {a : α} {c : Cache} {Q : α → Cache → Prop} (h : Q a c) : Post (some (.ok (a, c))) Q := by
  intro b c' e; cases e; exact h

theorem Post.error {α : Type} {e : PyErr} {Q : α → Cache → Prop} : Post (some (.error e)) Q := by
  intro b c' e; cases e

/-- entries of the cache are not changed -/
def Ext (c c' : Cache) : Prop := ∀ k r, Dict.get? c k = some r → Dict.get? c' k = some r

theorem Ext.refl (c : Cache) : Ext c c := fun _ _ h => h
theorem Ext.trans {a b c : Cache} (h : Ext a b) (h' : Ext b c) : Ext a c := fun k r hk => h' k r (h k r hk)

/-- the answers that are in the cache -/
def tableOf (c : Cache) (x y : Nat) : Option Bool := (Dict.get? c (key x y)).getD none

/-- `x in l`, when it ends normally -/
def memOf (eqv : V → V → Plain) (x : V) (ys : List V) : Bool := decide (isIn eqv x [] ys ≠ some (.ok (false, [])))

section
variable {eqv : V → V → Plain} {rec : Cache → Nat → Nat → Run (Option Bool)} {I : Cache → Prop}

/-- what is known about the recursive calls -/
def RecOk (I : Cache → Prop) (rec : Cache → Nat → Nat → Run (Option Bool)) (P : Nat → Nat → Prop) : Prop :=
  ∀ c x y, I c → P x y → Post (rec c x y) (fun r c' => I c' ∧ Ext c c' ∧ Dict.get? c' (key x y) = some r)

theorem candidates_post {P : Nat → Nat → Prop} (hrec : RecOk I rec P) (x : Nat) :
    ∀ (ys : List V), (∀ y, .ref y ∈ ys → P x y) → ∀ (i : Nat) (found : Option Bool) (c : Cache), I c →
      Post (candidates rec x ys i found c) (fun r c' => I c' ∧ Ext c c' ∧ ∀ c'', Ext c' c'' → r = pureCand (tableOf c'') x ys i found) := by
  intro ys
  induction ys with
  | nil => intro _ i found c hc; exact Post.ok ⟨hc, Ext.refl c, fun _ _ => rfl⟩
  | cons y ys ih =>
    intro hP i found c hc
    have ih := ih (fun y hy => hP y (List.mem_cons_of_mem _ hy))
    cases y <;> simp only [candidates]
    case ref y =>
      refine (hrec c x y hc (hP y List.mem_cons_self)).next ?_
      rintro r c' ⟨h1, h2, h3⟩
      have ht : ∀ c'', Ext c' c'' → tableOf c'' x y = r := by
        intro c'' h; unfold tableOf; rw [h _ _ h3]; rfl
      rcases r with _ | _ | _
      · intro a c2 e
        obtain ⟨g1, g2, g3⟩ := ih (i + 1) none c' h1 a c2 e
        refine ⟨g1, h2.trans g2, ?_⟩
        intro c'' h
        simp only [pureCand, ht c'' (g2.trans h)]
        exact g3 c'' h
      · intro a c2 e
        obtain ⟨g1, g2, g3⟩ := ih (i + 1) found c' h1 a c2 e
        refine ⟨g1, h2.trans g2, ?_⟩
        intro c'' h
        simp only [pureCand, ht c'' (g2.trans h)]
        exact g3 c'' h
      · refine Post.ok ⟨h1, h2, ?_⟩
        intro c'' h
        simp only [pureCand, ht c'' h]
    case link => exact ih (i + 1) found c hc
    case obj => exact ih (i + 1) found c hc
    all_goals exact Post.error

theorem isIn_post (x : V) (c : Cache) (ys : List V) : Post (isIn eqv x c ys) (fun b c' => c' = c ∧ b = memOf eqv x ys) := by
  have key : ∀ ys, Post (isIn eqv x c ys) (fun b c' => c' = c ∧ isIn eqv x [] ys = some (.ok (b, []))) := by
    intro ys
    induction ys with
    | nil => exact Post.ok ⟨rfl, rfl⟩
    | cons y ys ih =>
      simp only [isIn]
      refine Post.plain ?_
      intro b hb
      rw [hb]
      cases b
      · simpa [Plain.next] using ih
      · simpa [Plain.next] using Post.ok ⟨rfl, rfl⟩
  intro b c' e
  obtain ⟨h1, h2⟩ := key ys b c' e
  refine ⟨h1, ?_⟩
  unfold memOf
  rw [h2]
  cases b <;> simp

theorem crawl_post {P : Nat → Nat → Prop} (hrec : RecOk I rec P) :
    ∀ (xs ys : List V), (∀ x y, .ref x ∈ xs → .ref y ∈ ys → P x y) → ∀ (c : Cache), I c →
      Post (crawl eqv rec xs ys c) (fun b c' => I c' ∧ Ext c c' ∧ ∀ c'', Ext c' c'' → b = greedy (tableOf c'') (memOf eqv) xs ys) := by
  intro xs
  induction xs with
  | nil => intro ys _ c hc; exact Post.ok ⟨hc, Ext.refl c, fun _ _ => by simp [greedy]⟩
  | cons x xs ih =>
    intro ys hP c hc
    have ih' := fun ys' (h : ∀ y, y ∈ ys' → y ∈ ys) => ih ys' (fun x y hx hy => hP x y (List.mem_cons_of_mem _ hx) (h _ hy))
    by_cases href : ∃ o, x = .ref o
    · obtain ⟨o, rfl⟩ := href
      simp only [crawl]
      refine (candidates_post hrec o ys (fun y hy => hP o y List.mem_cons_self hy) 0 _ c hc).next ?_
      rintro ⟨found, i⟩ c' ⟨h1, h2, h3⟩
      rcases found with _ | _ | _
      · intro b c2 e
        obtain ⟨g1, g2, g3⟩ := ih' ys (fun _ h => h) c' h1 b c2 e
        refine ⟨g1, h2.trans g2, fun c'' h => ?_⟩
        simp only [greedy, ← h3 c'' (g2.trans h)]
        exact g3 c'' h
      · refine Post.ok ⟨h1, h2, fun c'' h => ?_⟩
        simp only [greedy, ← h3 c'' h]
      · intro b c2 e
        obtain ⟨g1, g2, g3⟩ := ih' _ (fun _ h => List.mem_of_mem_eraseIdx h) c' h1 b c2 e
        refine ⟨g1, h2.trans g2, fun c'' h => ?_⟩
        simp only [greedy, ← h3 c'' (g2.trans h)]
        exact g3 c'' h
    · have hx : ∀ q, x ≠ .ref q := fun q hq => href ⟨q, hq⟩
      have h1 : crawl eqv rec (x :: xs) ys c = (isIn eqv x c ys).next fun b c' => if b then crawl eqv rec xs ys c' else some (.ok (false, c')) := by
        cases x <;> first | rfl | exact absurd rfl (hx _)
      have h2 : ∀ t, greedy t (memOf eqv) (x :: xs) ys = (memOf eqv x ys && greedy t (memOf eqv) xs ys) := by
        intro t; cases x <;> first | rfl | exact absurd rfl (hx _)
      rw [h1]
      simp only [h2]
      refine (isIn_post x c ys).next ?_
      rintro b c' ⟨rfl, rfl⟩
      rcases hb : memOf eqv x ys with _ | _
      · exact Post.ok ⟨hc, Ext.refl _, fun _ _ => rfl⟩
      · simpa using ih' ys (fun _ h => h) c' hc

/-- The pairs of entities that comparing two values compares. -/
def Inside (v w : V) (x y : Nat) : Prop :=
  (v = .ref x ∧ w = .ref y) ∨ ∃ l l', iter v = some l ∧ iter w = some l' ∧ .ref x ∈ l ∧ .ref y ∈ l'

/-- what comparing two values says -/
theorem compareValue_post {P : Nat → Nat → Prop} (hrec : RecOk I rec P) {ua ub : Bool} {v w : V} {c : Cache} (hc : I c)
    (hP : ∀ x y, Inside v w x y → P x y) :
    Post (compareValue eqv rec ua ub v w c) (fun b c' => I c' ∧ Ext c c' ∧
      ((∀ x y, v = .ref x → w = .ref y → ∃ r, Dict.get? c' (key x y) = some r ∧ b = decide (r ≠ some false)) ∧
       (∀ l l', iter v = some l → iter w = some l' → l.length = l'.length → b = greedy (tableOf c') (memOf eqv) l l') ∧
       (∀ l l', iter v = some l → iter w = some l' → l.length ≠ l'.length → b = ((l.isEmpty && ua) || (l'.isEmpty && ub))) ∧
       ((iter v = none ∨ iter w = none) → ((∃ x, v = .ref x) → ∀ y, w ≠ .ref y) → eqv v w = some (.ok b)))) := by
  unfold compareValue
  split
  · rename_i x y
    refine (hrec c x y hc (hP x y (Or.inl ⟨rfl, rfl⟩))).next ?_
    rintro r c' ⟨h1, h2, h3⟩
    refine Post.ok ⟨h1, h2, ?_, ?_, ?_, ?_⟩
    · intro x' y' hx hy; cases hx; cases hy; exact ⟨r, h3, rfl⟩
    · intro l l' h; cases h
    · intro l l' h; cases h
    · intro _ h; exact absurd rfl (h ⟨x, rfl⟩ y)
  · rename_i hn
    unfold compareOther
    split
    · rename_i l l' hl hl'
      unfold compareLists
      split
      · rename_i hlen
        refine Post.ok ⟨hc, Ext.refl c, ?_, ?_, ?_, ?_⟩
        · intro x y h1 h2; exact absurd h2 (hn x y h1)
        · intro m m' h1 h2 h3; rw [hl] at h1; rw [hl'] at h2; cases h1; cases h2; exact absurd h3 hlen
        · intro m m' h1 h2 h3; rw [hl] at h1; rw [hl'] at h2; cases h1; cases h2; rfl
        · intro h; rw [hl, hl'] at h; simp at h
      · rename_i hlen
        intro b c' e
        obtain ⟨g1, g2, g3⟩ := crawl_post hrec l l' (fun x y hx hy => hP x y (Or.inr ⟨l, l', hl, hl', hx, hy⟩)) c hc b c' e
        refine ⟨g1, g2, ?_, ?_, ?_, ?_⟩
        · intro x y h1 h2; exact absurd h2 (hn x y h1)
        · intro m m' h1 h2 h3; rw [hl] at h1; rw [hl'] at h2; cases h1; cases h2; exact g3 c' (Ext.refl c')
        · intro m m' h1 h2 h3; rw [hl] at h1; rw [hl'] at h2; cases h1; cases h2; exact absurd h3 hlen
        · intro h; rw [hl, hl'] at h; simp at h
    · rename_i hnot
      refine Post.plain ?_
      intro b hb
      refine Post.ok ⟨hc, Ext.refl c, ?_, ?_, ?_, ?_⟩
      · intro x y h1 h2; exact absurd h2 (hn x y h1)
      · intro m m' h1 h2; exact absurd h2 (hnot m m' h1)
      · intro m m' h1 h2; exact absurd h2 (hnot m m' h1)
      · intro _ _; exact hb
end

/-- The loop over the keys: if every comparison of two values says True, so does the loop. -/
theorem compareFields_post {eqv : V → V → Plain} {rec : Cache → Nat → Nat → Run (Option Bool)} {I : Cache → Prop} {d' : List (String × V)}
    {ua ub : Bool} : ∀ (fs : List (String × V)) (c : Cache), I c →
      (∀ k v w, (k, v) ∈ fs → Dict.get? d' k = some w → ∀ c, I c →
        Post (compareValue eqv rec ua ub v w c) (fun b c' => I c' ∧ Ext c c' ∧ b = true)) →
      Post (compareFields eqv rec ua ub d' fs c) (fun b c' => I c' ∧ Ext c c' ∧ b = true) := by
  intro fs
  induction fs with
  | nil => intro c hc _; exact Post.ok ⟨hc, Ext.refl c, rfl⟩
  | cons f fs ih =>
    intro c hc h
    obtain ⟨k, v⟩ := f
    simp only [compareFields]
    split
    · exact Post.error
    · rename_i w hw
      refine (h k v w List.mem_cons_self hw c hc).next ?_
      rintro b c' ⟨h1, h2, rfl⟩
      simp only [if_true]
      intro b c2 e
      obtain ⟨g1, g2, g3⟩ := ih c' h1 (fun k v w hk => h k v w (List.mem_cons_of_mem _ hk)) b c2 e
      exact ⟨g1, h2.trans g2, g3⟩

/-- The loop over the keys, in general: what it leaves in the cache. -/
theorem compareFields_ext {eqv : V → V → Plain} {rec : Cache → Nat → Nat → Run (Option Bool)} {I : Cache → Prop} {d' : List (String × V)}
    {ua ub : Bool} (hrec : RecOk I rec (fun _ _ => True)) : ∀ (fs : List (String × V)) (c : Cache), I c →
      Post (compareFields eqv rec ua ub d' fs c) (fun _ c' => I c' ∧ Ext c c') := by
  intro fs
  induction fs with
  | nil => intro c hc; exact Post.ok ⟨hc, Ext.refl c⟩
  | cons f fs ih =>
    intro c hc
    obtain ⟨k, v⟩ := f
    simp only [compareFields]
    split
    · exact Post.error
    · rename_i w hw
      refine (compareValue_post hrec hc (fun _ _ _ => trivial)).next ?_
      rintro b c' ⟨h1, h2, _⟩
      cases b
      · simpa using Post.ok ⟨h1, h2⟩
      · simp only [if_true]
        intro b c2 e
        obtain ⟨g1, g2⟩ := ih c' h1 b c2 e
        exact ⟨g1, h2.trans g2⟩

theorem ext_set {c c1 : Cache} {k : Nat × Nat} {r r' : Option Bool} (hn : Dict.get? c k = none) (h : Ext (Dict.set c k r) c1) :
    Ext c (Dict.set c1 k r') := by
  intro q v hq
  have hne : q ≠ k := by rintro rfl; rw [hn] at hq; cases hq
  rw [Dict.get?_set, if_neg (fun h => hne h.symm)]
  apply h
  rw [Dict.get?_set, if_neg (fun h => hne h.symm)]
  exact hq

theorem key_comm (a b : Nat) : key a b = key b a := by
  unfold key; rw [Nat.min_comm, Nat.max_comm]

theorem key_eq {a b x y : Nat} (h : key a b = key x y) : (a = x ∧ b = y) ∨ (a = y ∧ b = x) := by
  unfold key at h
  simp only [Prod.mk.injEq] at h
  omega

/-! ## Reflexivity -/

/-- what dictionaries and objects look like: distinct keys, each with a value -/
def ShapeOk (v : V) : Prop := ∀ w ∈ v.subs,
  (∀ ks vs, w = .dict ks vs → ks.Nodup ∧ ks.length = vs.length) ∧ (∀ t ns vs, w = .obj t ns vs → ns.Nodup ∧ ns.length = vs.length)

mutual
theorem subs_trans (v : V) {w x : V} (hw : w ∈ v.subs) (hx : x ∈ w.subs) : x ∈ v.subs := by
  cases v with
  | list l =>
    simp only [V.subs, List.mem_cons] at hw ⊢
    rcases hw with rfl | hw
    · simpa only [V.subs, List.mem_cons] using hx
    · exact Or.inr (subss_trans l hw hx)
  | tuple l =>
    simp only [V.subs, List.mem_cons] at hw ⊢
    rcases hw with rfl | hw
    · simpa only [V.subs, List.mem_cons] using hx
    · exact Or.inr (subss_trans l hw hx)
  | dict ks vs =>
    simp only [V.subs, List.mem_cons, List.mem_append] at hw ⊢
    rcases hw with rfl | hw | hw
    · simpa only [V.subs, List.mem_cons, List.mem_append] using hx
    · exact Or.inr (Or.inl (subss_trans ks hw hx))
    · exact Or.inr (Or.inr (subss_trans vs hw hx))
  | obj t ns vs =>
    simp only [V.subs, List.mem_cons] at hw ⊢
    rcases hw with rfl | hw
    · simpa only [V.subs, List.mem_cons] using hx
    · exact Or.inr (subss_trans vs hw hx)
  | link s i =>
    simp only [V.subs, List.mem_cons, List.not_mem_nil, or_false] at hw
    rcases hw with rfl | rfl | rfl
    · exact hx
    · simp only [V.subs, List.mem_singleton] at hx; subst hx; simp [V.subs]
    · simp only [V.subs, List.mem_singleton] at hx; subst hx; simp [V.subs]
  | _ =>
    simp only [V.subs, List.mem_singleton] at hw
    subst hw
    exact hx
termination_by structural v
theorem subss_trans (l : List V) {w x : V} (hw : w ∈ subss l) (hx : x ∈ w.subs) : x ∈ subss l := by
  cases l with
  | nil => simp [subss] at hw
  | cons v vs =>
    simp only [subss, List.mem_append] at hw ⊢
    rcases hw with hw | hw
    · exact Or.inl (subs_trans v hw hx)
    · exact Or.inr (subss_trans vs hw hx)
termination_by structural l
end

theorem ShapeOk.sub {v w : V} (h : ShapeOk v) (hw : w ∈ v.subs) : ShapeOk w :=
  fun x hx => h x (subs_trans v hw hx)

theorem get?_zip_at {K : Type} [DecidableEq K] (k : K) (v : V) : ∀ (ks : List K) (vs : List V) (pre : List K) (pre' : List V),
    pre.length = pre'.length → (pre ++ k :: ks).Nodup → Dict.get? ((pre ++ k :: ks).zip (pre' ++ v :: vs)) k = some v := by
  intro ks vs pre
  induction pre with
  | nil =>
    intro pre' h _
    have : pre' = [] := List.eq_nil_of_length_eq_zero h.symm
    subst this
    simp [Dict.get?]
  | cons p pre ih =>
    intro pre' h hn
    cases pre' with
    | nil => cases h
    | cons p' pre' =>
      simp only [List.cons_append, List.nodup_cons, List.zip_cons_cons] at hn ⊢
      have hne : p ≠ k := by rintro rfl; exact hn.1 (by simp)
      simp only [Dict.get?, hne, if_false]
      exact ih pre' (by simpa using h) hn.2

mutual
/-- every value is equal to itself -/
theorem eqV_refl (U : Nat → List (String × String)) (ent : Nat → Nat → Plain) (v : V) (hv : ShapeOk v) : eqV U ent v v = some (.ok true) := by
  cases v with
  | none => simp [eqV]
  | bool b => simp [eqV, num]
  | int b => simp [eqV, num]
  | float b => simp [eqV, num]
  | str s => simp [eqV]
  | link s i => simp [eqV]
  | ref o => simp [eqV]
  | list l =>
    simp only [eqV, if_true]
    exact eqVs_refl U ent l (fun x hx => hv.sub (by simp only [V.subs, List.mem_cons]; exact Or.inr (mem_subss.mpr ⟨x, hx, self_mem_subs _⟩)))
  | tuple l =>
    simp only [eqV, if_true]
    exact eqVs_refl U ent l (fun x hx => hv.sub (by simp only [V.subs, List.mem_cons]; exact Or.inr (mem_subss.mpr ⟨x, hx, self_mem_subs _⟩)))
  | dict ks vs =>
    simp only [eqV, if_true]
    have h := (hv _ (self_mem_subs _)).1 ks vs rfl
    exact eqItems_refl U ent ks vs [] [] ks vs rfl rfl rfl h.2 h.1
      (fun x hx => hv.sub (by simp only [V.subs, List.mem_cons, List.mem_append]; exact Or.inr (Or.inr (mem_subss.mpr ⟨x, hx, self_mem_subs _⟩))))
  | obj t ns vs =>
    simp only [eqV, and_self, if_true]
    have h := (hv _ (self_mem_subs _)).2 t ns vs rfl
    exact eqAttrs_refl U ent ns vs [] [] ns vs rfl rfl rfl h.2 h.1
      (fun x hx => hv.sub (by simp only [V.subs, List.mem_cons]; exact Or.inr (mem_subss.mpr ⟨x, hx, self_mem_subs _⟩)))
termination_by structural v
theorem eqVs_refl (U : Nat → List (String × String)) (ent : Nat → Nat → Plain) (l : List V) (hl : ∀ x ∈ l, ShapeOk x) : eqVs U ent l l = some (.ok true) := by
  cases l with
  | nil => simp [eqVs]
  | cons v vs =>
    simp only [eqVs, eqV_refl U ent v (hl v List.mem_cons_self), Plain.and]
    exact eqVs_refl U ent vs (fun x hx => hl x (List.mem_cons_of_mem _ hx))
termination_by structural l
theorem eqItems_refl (U : Nat → List (String × String)) (ent : Nat → Nat → Plain) (ks' vs' pre pre' ks vs : List V) (hk : ks' = pre ++ ks) (hvs : vs' = pre' ++ vs)
    (hp : pre.length = pre'.length) (hlen : ks.length = vs.length) (hn : ks'.Nodup) (hl : ∀ x ∈ vs, ShapeOk x) : eqItems U ent ks' vs' ks vs = some (.ok true) := by
  cases vs with
  | nil => cases ks <;> simp [eqItems]
  | cons v vs =>
    cases ks with
    | nil => simp [eqItems]
    | cons k ks =>
      have h1 : Dict.get? (ks'.zip vs') k = some v := by
        rw [hk] at hn ⊢; rw [hvs]
        exact get?_zip_at k v ks vs pre pre' hp hn
      simp only [eqItems, h1, eqV_refl U ent v (hl v List.mem_cons_self), Plain.and]
      exact eqItems_refl U ent ks' vs' (pre ++ [k]) (pre' ++ [v]) ks vs (by simp [hk]) (by simp [hvs]) (by simp [hp]) (by simpa using hlen) hn
        (fun x hx => hl x (List.mem_cons_of_mem _ hx))
termination_by structural vs
theorem eqAttrs_refl (U : Nat → List (String × String)) (ent : Nat → Nat → Plain) (ks' : List String) (vs' : List V) (pre : List String) (pre' : List V) (ks : List String) (vs : List V) (hk : ks' = pre ++ ks) (hvs : vs' = pre' ++ vs)
    (hp : pre.length = pre'.length) (hlen : ks.length = vs.length) (hn : ks'.Nodup) (hl : ∀ x ∈ vs, ShapeOk x) : eqAttrs U ent ks' vs' ks vs = some (.ok true) := by
  cases vs with
  | nil => cases ks <;> simp [eqAttrs]
  | cons v vs =>
    cases ks with
    | nil => simp [eqAttrs]
    | cons k ks =>
      have h1 : Dict.get? (ks'.zip vs') k = some v := by
        rw [hk] at hn ⊢; rw [hvs]
        exact get?_zip_at k v ks vs pre pre' hp hn
      simp only [eqAttrs, h1, eqV_refl U ent v (hl v List.mem_cons_self), Plain.and]
      exact eqAttrs_refl U ent ks' vs' (pre ++ [k]) (pre' ++ [v]) ks vs (by simp [hk]) (by simp [hvs]) (by simp [hp]) (by simpa using hlen) hn
        (fun x hx => hl x (List.mem_cons_of_mem _ hx))
termination_by structural vs
end

/-- `x in l` for an element of the list, if it ends normally -/
theorem isIn_self {eqv : V → V → Plain} {x : V} (hx : eqv x x = some (.ok true)) {c : Cache} : ∀ {ys : List V}, x ∈ ys →
    Post (isIn eqv x c ys) (fun b _ => b = true) := by
  intro ys
  induction ys with
  | nil => intro h; cases h
  | cons y ys ih =>
    intro h
    simp only [isIn]
    refine Post.plain ?_
    intro b hb
    cases b
    · rcases List.mem_cons.mp h with rfl | h
      · rw [hx] at hb; cases hb
      · simpa using ih h
    · exact Post.ok rfl

theorem memOf_self {eqv : V → V → Plain} {x : V} (hx : eqv x x = some (.ok true)) {ys : List V} (h : x ∈ ys) : memOf eqv x ys = true := by
  unfold memOf
  rw [decide_eq_true_eq]
  intro e
  have := isIn_self hx h false [] e
  cases this

/-- no entity was found to differ from itself -/
def NoSelf (c : Cache) : Prop := ∀ x, Dict.get? c (key x x) ≠ some (some false)

theorem sameKeys_refl (d : List (String × V)) : sameKeys d d = true := by
  simp only [sameKeys, Bool.and_eq_true, List.all_eq_true, decide_eq_true_eq]
  exact ⟨fun e he => List.mem_map_of_mem he, fun e he => List.mem_map_of_mem he⟩

theorem sameUids_refl {u : List (String × String)} (h : Dict.WF u) : sameUids u u = true := by
  simp only [sameUids, Bool.and_eq_true, List.all_eq_true, decide_eq_true_eq]
  exact ⟨trivial, fun e he => Dict.get?_of_mem h he⟩

/-- what entities look like: distinct scopes, distinct keys, and values that are dictionaries and objects with distinct keys -/
structure Proper (U : Nat → List (String × String)) (D : Nat → List (String × V)) : Prop where
  uids : ∀ o, Dict.WF (U o)
  keys : ∀ o, Dict.WF (D o)
  shape : ∀ o k v, (k, v) ∈ D o → ShapeOk v

theorem cachedEquals_refl {U : Nat → List (String × String)} {D : Nat → List (String × V)} (h : Proper U D) (ent : Nat → Nat → Plain) :
    ∀ n, RecOk NoSelf (cachedEquals U D (eqV U ent) n) (fun _ _ => True) := by
  intro n
  induction n with
  | zero => intro c a b _ _ r c' e; cases e
  | succ n ih =>
    intro c a b hc _
    simp only [cachedEquals, body]
    split
    · rename_i r hr
      exact Post.ok ⟨hc, Ext.refl c, hr⟩
    · rename_i hnone
      have hset : ∀ (c : Cache) (r : Option Bool), NoSelf c → (a = b → r ≠ some false) → NoSelf (Dict.set c (key a b) r) := by
        intro c r hc hr x
        rw [Dict.get?_set]
        split
        · rename_i he
          have hab : a = b := by rcases key_eq he with ⟨rfl, h⟩ | ⟨h, rfl⟩ <;> exact h.symm ▸ rfl
          intro e
          exact hr hab (by cases e; rfl)
        · exact hc x
      have hget : ∀ (c : Cache) (r : Option Bool), Dict.get? (Dict.set c (key a b) r) (key a b) = some r := by
        intro c r; rw [Dict.get?_set, if_pos rfl]
      by_cases hab : a = b
      · subst hab
        rw [sameKeys_refl, sameUids_refl (h.uids a)]
        simp only [Bool.not_true, Bool.false_eq_true, if_false]
        have hc1 := hset c none hc (by simp)
        refine Post.next (compareFields_post (I := NoSelf) (D a) _ hc1 ?_) ?_
        · intro k v w hv hw c hc b c' e
          have hvw : v = w := by
            rw [Dict.get?_of_mem (h.keys a) hv] at hw; cases hw; rfl
          subst hvw
          have hsh := h.shape a k v hv
          obtain ⟨g1, g2, g3, g4, g5, g6⟩ := compareValue_post ih hc (fun _ _ _ => trivial) b c' e
          refine ⟨g1, g2, ?_⟩
          by_cases href : ∃ x, v = .ref x
          · obtain ⟨x, rfl⟩ := href
            obtain ⟨r, hr, rfl⟩ := g3 x x rfl rfl
            rw [decide_eq_true_eq]
            rintro rfl
            exact g1 x hr
          · cases hi : iter v with
            | none =>
              have := g6 (Or.inl hi) (fun hx => absurd hx href)
              rw [eqV_refl U ent v hsh] at this
              cases this; rfl
            | some l =>
              rw [g4 l l hi hi rfl]
              refine greedy_self (fun x y => by unfold tableOf; rw [key_comm]) ?_ l ?_
              · intro x
                unfold tableOf
                cases hx : Dict.get? c' (key x x) with
                | none => simp
                | some r =>
                  intro e
                  simp only [Option.getD_some] at e
                  exact g1 x (by rw [hx, e])
              · intro x hl hn ys hx
                exact memOf_self (eqV_refl U ent x (hsh.sub (mem_subs_of_iter hi hl (self_mem_subs _)))) hx
        · rintro b c2 ⟨h1, h2, rfl⟩
          exact Post.ok ⟨hset c2 _ h1 (by simp), ext_set hnone h2, hget _ _⟩
      · have hc1 := hset c none hc (by simp)
        split
        · exact Post.ok ⟨hset _ _ hc1 (fun e => absurd e hab), ext_set hnone (Ext.refl _), hget _ _⟩
        · split
          · exact Post.ok ⟨hset _ _ hc1 (fun e => absurd e hab), ext_set hnone (Ext.refl _), hget _ _⟩
          · refine (compareFields_ext ih (D a) _ hc1).next ?_
            rintro b' c2 ⟨h1, h2⟩
            exact Post.ok ⟨hset _ _ h1 (fun e => absurd e hab), ext_set hnone h2, hget _ _⟩

theorem equals_refl {U : Nat → List (String × String)} {D : Nat → List (String × V)} (h : Proper U D) {n k a : Nat} {r : Bool}
    (hr : equals U D n k a a = some (.ok r)) : r = true := by
  cases k with
  | zero => cases hr
  | succ k =>
    simp only [equals, entityEq] at hr
    split at hr
    · cases hr
    · cases hr
    · rename_i r' c hc
      cases hr
      cases n with
      | zero => cases hc
      | succ n =>
        have hfin := hc
        obtain ⟨h1, _, h2⟩ := cachedEquals_refl h (equals U D (n + 1) k) (n + 1) [] a a (by intro x; simp [Dict.get?]) trivial r' c hc
        rcases r' with _ | _ | _
        · -- the outermost call does not leave "in progress"
          simp only [cachedEquals, body, Dict.get?] at hfin
          split at hfin
          · cases hfin
          · split at hfin
            · cases hfin
            · unfold Run.next at hfin
              split at hfin <;> cases hfin
        · exact absurd h2 (h1 a)
        · rfl

/-- C34. An entity is equal to itself: if `a == a` gives an answer, the answer is True. For every object graph, however cyclic, and
every order in which the dictionaries are walked. -/
theorem C34_reflexive {U : Nat → List (String × String)} {D : Nat → List (String × V)} (h : Proper U D) {n k a : Nat} {r : Bool}
    (hr : equals U D n k a a = some (.ok r)) : r = true := equals_refl h hr

/-- C34, with C33: an entity is equal to itself. -/
theorem C34_reflexive_answers {U : Nat → List (String × String)} {D : Nat → List (String × V)} (h : Proper U D) {N : Nat} {rank : Nat → Nat}
    (hR : Ranked D N rank) {kt : String → Bool} (ht : Typed D kt) (n : Nat) (hn : N * N < n) (k a : Nat) (ha : a < N) (hra : rank a < k) :
    equals U D n k a a = some (.ok true) := by
  obtain ⟨r, hr⟩ := C33_answers_partial (U := U) hR ht n hn k a a ha ha hra hra
  rw [hr, C34_reflexive h hr]

/-! ## What equal entities have in common -/

/-- values that are neither containers nor objects -/
def Scalar : V → Prop
  | .none | .bool _ | .int _ | .float _ | .str _ => True
  | _ => False

/-- equal scalars, as Python compares them: `None`, strings, and numbers by value -/
inductive SameScalar : V → V → Prop
  | none : SameScalar .none .none
  | str (s : String) : SameScalar (.str s) (.str s)
  | num {v w : V} {r : Rat} (hv : num v = some r) (hw : num w = some r) : SameScalar v w

theorem eqV_scalar {U : Nat → List (String × String)} {ent : Nat → Nat → Plain} {v w : V} (hs : Scalar v ∨ Scalar w)
    (h : eqV U ent v w = some (.ok true)) : SameScalar v w := by
  cases v with
  | none => cases w <;> simp [eqV] at h <;> constructor
  | str s => cases w <;> simp [eqV] at h; subst h; constructor
  | bool b =>
    simp only [eqV, Option.some.injEq, Except.ok.injEq, beq_iff_eq] at h
    exact SameScalar.num rfl h.symm
  | int b =>
    simp only [eqV, Option.some.injEq, Except.ok.injEq, beq_iff_eq] at h
    exact SameScalar.num rfl h.symm
  | float b =>
    simp only [eqV, Option.some.injEq, Except.ok.injEq, beq_iff_eq] at h
    exact SameScalar.num rfl h.symm
  | _ =>
    have hw : Scalar w := by simpa [Scalar] using hs
    cases w <;> simp [Scalar] at hw <;> simp [eqV] at h

theorem compareFields_true {eqv : V → V → Plain} {rec : Cache → Nat → Nat → Run (Option Bool)} {d' : List (String × V)}
    {ua ub : Bool} : ∀ (fs : List (String × V)) (c : Cache) (c' : Cache), compareFields eqv rec ua ub d' fs c = some (.ok (true, c')) →
      ∀ k v, (k, v) ∈ fs → ∃ w c1 c2, Dict.get? d' k = some w ∧ compareValue eqv rec ua ub v w c1 = some (.ok (true, c2)) := by
  intro fs
  induction fs with
  | nil => intro _ _ _ k v h; cases h
  | cons f fs ih =>
    intro c c' h k v hk
    obtain ⟨k', v'⟩ := f
    simp only [compareFields] at h
    split at h
    · cases h
    · rename_i w hw
      unfold Run.next at h
      split at h
      · cases h
      · cases h
      · rename_i b c1 hb
        cases b
        · simp at h
        · simp only [if_true] at h
          rcases List.mem_cons.mp hk with e | hk
          · cases e; exact ⟨w, c, c1, hw, hb⟩
          · exact ih c1 c' h k v hk

/-- C34. Equal entities have the same keys (so they are of the same class: the key "type" is a string), the same uids, and equal
scalars under every key; their lists have the same length, unless one is empty and its owner has uids (an object known by a link). -/
theorem C34_sound {U : Nat → List (String × String)} {D : Nat → List (String × V)} {n k a b : Nat} (hu : Dict.WF (U b)) (hu' : Dict.WF (U a))
    (h : equals U D n k a b = some (.ok true)) :
    (∀ key, key ∈ Dict.keys (D a) ↔ key ∈ Dict.keys (D b)) ∧
    (∀ s, Dict.get? (U a) s = Dict.get? (U b) s) ∧
    (∀ key v, (key, v) ∈ D a → ∃ w, Dict.get? (D b) key = some w ∧ (Scalar v ∨ Scalar w → SameScalar v w) ∧
      ∀ l l', iter v = some l → iter w = some l' → l.length = l'.length ∨ (l = [] ∧ U a ≠ []) ∨ (l' = [] ∧ U b ≠ [])) := by
  cases k with
  | zero => cases h
  | succ k =>
    simp only [equals, entityEq] at h
    split at h
    · cases h
    · cases h
    · rename_i r c hc
      simp only [Option.some.injEq, Except.ok.injEq, decide_eq_true_eq] at h
      subst h
      cases n with
      | zero => cases hc
      | succ n =>
        simp only [cachedEquals, body, Dict.get?] at hc
        split at hc
        · cases hc
        · rename_i hk
          split at hc
          · cases hc
          · rename_i hs
            unfold Run.next at hc
            split at hc
            · cases hc
            · cases hc
            · rename_i r c2 hcf
              cases hc
              simp only [sameKeys, Bool.not_eq_true', Bool.not_eq_false, Bool.and_eq_true, List.all_eq_true, decide_eq_true_eq] at hk
              simp only [sameUids, Bool.not_eq_true', Bool.not_eq_false, Bool.and_eq_true, List.all_eq_true, decide_eq_true_eq] at hs
              refine ⟨?_, ?_, ?_⟩
              · intro key
                constructor
                · intro h
                  obtain ⟨v, hv⟩ := Dict.mem_keys.mp h
                  exact hk.1 _ hv
                · intro h
                  obtain ⟨v, hv⟩ := Dict.mem_keys.mp h
                  exact hk.2 _ hv
              · intro s
                cases ha : Dict.get? (U a) s with
                | some i => exact (hs.2 _ (Dict.mem_of_get? ha)).symm
                | none =>
                  -- the same number of scopes, all of `a`'s in `b`: no others in `b`
                  cases hb : Dict.get? (U b) s with
                  | none => rfl
                  | some j =>
                    have hsub : ∀ x ∈ Dict.keys (U a), x ∈ (Dict.keys (U b)).erase s := by
                      intro x hx
                      obtain ⟨i, hi⟩ := Dict.mem_keys.mp hx
                      have hne : x ≠ s := by
                        rintro rfl
                        exact absurd hx (Dict.get?_eq_none_iff.mp ha)
                      rw [List.mem_erase_of_ne hne]
                      exact Dict.mem_keys.mpr ⟨i, Dict.mem_of_get? (hs.2 _ hi)⟩
                    have hmem : s ∈ Dict.keys (U b) := Dict.mem_keys.mpr ⟨j, Dict.mem_of_get? hb⟩
                    have hlen : (Dict.keys (U a)).length ≤ ((Dict.keys (U b)).erase s).length := by
                      have : (Dict.keys (U a)).Nodup := hu'
                      exact List.Nodup.length_le_of_subset this hsub
                    rw [List.length_erase_of_mem hmem] at hlen
                    have hpos := List.length_pos_of_mem hmem
                    simp only [Dict.keys, List.length_map] at hlen hpos
                    omega
              · intro key v hv
                obtain ⟨w, c1, c2, hw, hcv⟩ := compareFields_true _ _ _ hcf key v hv
                refine ⟨w, hw, ?_, ?_⟩
                · intro hsc
                  have hnr : ¬ ((∃ x, v = .ref x) ∧ ∃ y, w = .ref y) := by
                    rintro ⟨⟨x, rfl⟩, y, rfl⟩; simp [Scalar] at hsc
                  unfold compareValue at hcv
                  split at hcv
                  · exact absurd ⟨⟨_, rfl⟩, _, rfl⟩ hnr
                  · unfold compareOther at hcv
                    split at hcv
                    · rename_i l l' hl hl'
                      cases v <;> simp [Scalar, iter] at hsc hl <;> cases w <;> simp [Scalar, iter] at hsc hl'
                    · unfold Plain.next at hcv
                      split at hcv
                      · cases hcv
                      · cases hcv
                      · rename_i b' hb'
                        cases hcv
                        exact eqV_scalar hsc hb'
                · intro l l' hl hl'
                  unfold compareValue at hcv
                  split at hcv
                  · simp [iter] at hl
                  · unfold compareOther at hcv
                    rw [hl, hl'] at hcv
                    simp only [compareLists] at hcv
                    split at hcv
                    · rename_i hlen
                      simp only [Option.some.injEq, Except.ok.injEq, Prod.mk.injEq, Bool.or_eq_true, Bool.and_eq_true, List.isEmpty_iff,
                        Bool.not_eq_true', List.isEmpty_eq_false_iff] at hcv
                      exact Or.inr hcv.1
                    · rename_i hlen
                      exact Or.inl (Classical.byContradiction (fun h => hlen h))

end Verif.Equal
