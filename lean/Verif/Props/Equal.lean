import Verif.Model.Equal
import Verif.Props.Visit
/-!
# C33, C34: equality of entities
-/
set_option linter.unusedSimpArgs false
set_option linter.unusedSectionVars false
set_option linter.unusedVariables false

namespace Verif.Equal
open Verif.Py Verif.Value

/-! ## C33: termination -/

/-- The graph that the comparison walks: the entities are `0, ..., N-1`; a rank bounds how entities can be nested in plain values.
Entities that are fields, or elements of lists that are fields, may form any cycles (they have at most the same rank); an entity inside
a plain value (as a template is inside an attribute) has a smaller rank. In gemd, attribute templates have rank 0, everything else
rank 1: plain values contain no other entities. -/
structure Ranked (D : Nat → List (String × V)) (N : Nat) (rank : Nat → Nat) : Prop where
  closed : ∀ o < N, ∀ k v, (k, v) ∈ D o → ∀ p, .ref p ∈ v.subs → p < N
  field : ∀ o < N, ∀ k p, (k, .ref p) ∈ D o → rank p ≤ rank o
  member : ∀ o < N, ∀ k v l p, (k, v) ∈ D o → iter v = some l → .ref p ∈ l → rank p ≤ rank o
  inner : ∀ o < N, ∀ k v p, (k, v) ∈ D o → iter v = none → (∀ q, v ≠ .ref q) → .ref p ∈ v.subs → rank p < rank o
  innerMember : ∀ o < N, ∀ k v l x p, (k, v) ∈ D o → iter v = some l → x ∈ l → (∀ q, x ≠ .ref q) → .ref p ∈ x.subs → rank p < rank o

/-- a pair (a tuple of two) in the value begins with a string; comparing an entity with another pair raises AttributeError -/
def Pairs (v : V) : Prop := ∀ a b, .tuple [a, b] ∈ v.subs → ∃ s, a = .str s

/-- The elements of lists with a given key are entities and links (`kt k`), or contain no entities. In gemd, the keys of the first kind
are "ingredients" and "measurements". There are no pairs like (1, 2). -/
structure Typed (D : Nat → List (String × V)) (kt : String → Bool) : Prop where
  entities : ∀ o k v l, (k, v) ∈ D o → kt k = true → iter v = some l → ∀ x ∈ l, (∃ q, x = .ref q) ∨ (∃ s i, x = .link s i) ∨ ∃ t ns vs, x = .obj t ns vs
  plain : ∀ o k v l, (k, v) ∈ D o → kt k = false → iter v = some l → ∀ x ∈ l, ∀ q, x ≠ .ref q
  pairs : ∀ o k v, (k, v) ∈ D o → Pairs v

/-- the computation ends, leaving a cache with `G` if it does not raise; if it raises then `E` -/
def Total {α : Type} (E : Prop) (G : Cache → Prop) (r : Run α) : Prop :=
  ∃ x, r = some x ∧ (∀ e, x = .error e → E) ∧ ∀ a c, x = .ok (a, c) → G c

/-- the same for a comparison of plain values -/
def Ends (E : Prop) (r : Plain) : Prop := ∃ x, r = some x ∧ ∀ e, x = .error e → E

theorem Ends.ok {E : Prop} {b : Bool} : Ends E (some (.ok b)) := ⟨_, rfl, by intro e h; cases h⟩

theorem Total.next {α β : Type} {E : Prop} {G : Cache → Prop} {r : Run α} {f : α → Cache → Run β} (h : Total E G r)
    (hf : ∀ a c, G c → Total E G (f a c)) : Total E G (r.next f) := by
  obtain ⟨x, rfl, he, hx⟩ := h
  cases x with
  | error e => exact ⟨_, rfl, fun _ _ => he e rfl, by intro a c h; cases h⟩
  | ok p => obtain ⟨a, c⟩ := p; exact hf a c (hx a c rfl)

theorem Total.ok {α : Type} {E : Prop} {G : Cache → Prop} {a : α} {c : Cache} (h : G c) : Total E G (some (.ok (a, c)) : Run α) :=
  ⟨_, rfl, (by intro e h; cases h), by intro a' c' e; cases e; exact h⟩

theorem Total.error {α : Type} {E : Prop} {G : Cache → Prop} {e : PyErr} (h : E) : Total E G (some (.error e) : Run α) :=
  ⟨_, rfl, fun _ _ => h, by intro a' c' e; cases e⟩

theorem Total.plain {β : Type} {E : Prop} {G : Cache → Prop} {r : Plain} {f : Bool → Run β} (h : Ends E r) (hf : ∀ b, Total E G (f b)) :
    Total E G (r.next f) := by
  obtain ⟨x, rfl, he⟩ := h
  cases x with
  | error e => exact Total.error (he e rfl)
  | ok b => exact hf b

/-- an element that can be compared with an entity -/
def Like (x : V) : Prop := (∃ q, x = .ref q) ∨ (∃ s i, x = .link s i) ∨ ∃ t ns vs, x = .obj t ns vs

section
variable {eqv : V → V → Plain} {rec : Cache → Nat → Nat → Run (Option Bool)} {G : Cache → Prop} {E : Prop}

theorem candidates_total {x : Nat} {ys : List V} (hE : E ∨ ∀ y ∈ ys, Like y) (hrec : ∀ c, G c → ∀ y, .ref y ∈ ys → Total E G (rec c x y)) :
    ∀ (i : Nat) (found : Option Bool) (c : Cache), G c → Total E G (candidates rec x ys i found c) := by
  induction ys with
  | nil => intro i found c hc; exact Total.ok hc
  | cons y ys ih =>
    have ih := ih (hE.imp id (fun h y hy => h y (List.mem_cons_of_mem _ hy))) (fun c hc y hy => hrec c hc y (List.mem_cons_of_mem _ hy))
    intro i found c hc
    cases y <;> simp only [candidates]
    case ref y =>
      refine (hrec c hc y List.mem_cons_self).next ?_
      intro r c' hc'
      rcases r with _ | _ | _
      · exact ih _ _ _ hc'
      · exact ih _ _ _ hc'
      · exact Total.ok hc'
    case link => exact ih _ _ _ hc
    case obj => exact ih _ _ _ hc
    all_goals
      refine Total.error ?_
      rcases hE with h | h
      · exact h
      · rcases h _ List.mem_cons_self with ⟨_, h⟩ | ⟨_, _, h⟩ | ⟨_, _, _, h⟩ <;> cases h

theorem isIn_total {x : V} {ys : List V} {c : Cache} (hc : G c) (h : ∀ y ∈ ys, Ends E (eqv y x)) : Total E G (isIn eqv x c ys) := by
  induction ys with
  | nil => exact Total.ok hc
  | cons y ys ih =>
    simp only [isIn]
    refine Total.plain (h y List.mem_cons_self) ?_
    intro b
    cases b
    · simpa using ih (fun y hy => h y (List.mem_cons_of_mem _ hy))
    · simpa using Total.ok hc

theorem crawl_total {l' : List V} : ∀ {xs : List V} (hE : E ∨ ((∃ q, .ref q ∈ xs) → ∀ y ∈ l', Like y))
    (hrec : ∀ c, G c → ∀ x, .ref x ∈ xs → ∀ y, .ref y ∈ l' → Total E G (rec c x y))
    (heq : ∀ x ∈ xs, (∀ q, x ≠ .ref q) → ∀ y ∈ l', Ends E (eqv y x)),
    ∀ (ys : List V) (c : Cache), (∀ y ∈ ys, y ∈ l') → G c → Total E G (crawl eqv rec xs ys c) := by
  intro xs
  induction xs with
  | nil => intro _ _ _ ys c _ hc; exact Total.ok hc
  | cons x xs ih =>
    intro hE hrec heq
    have ih := ih (hE.imp id (fun h hq => h (hq.imp (fun q hq => List.mem_cons_of_mem _ hq)))) (fun c hc x hx => hrec c hc x (List.mem_cons_of_mem _ hx)) (fun x hx => heq x (List.mem_cons_of_mem _ hx))
    intro ys c hys hc
    have plain : (∀ q, x ≠ .ref q) → Total E G ((isIn eqv x c ys).next fun b c' => if b then crawl eqv rec xs ys c' else some (.ok (false, c'))) := by
      intro hx
      refine (isIn_total hc (fun y hy => heq x List.mem_cons_self hx y (hys y hy))).next ?_
      intro b c' hc'
      cases b
      · simpa using Total.ok hc'
      · simpa using ih ys c' hys hc'
    cases x <;> simp only [crawl]
    case ref x =>
      refine (candidates_total (hE.imp id (fun h y hy => h ⟨x, List.mem_cons_self⟩ y (hys y hy))) (fun c hc y hy => hrec c hc x List.mem_cons_self y (hys _ hy)) 0 _ c hc).next ?_
      rintro ⟨found, i⟩ c' hc'
      rcases found with _ | _ | _
      · exact ih ys c' hys hc'
      · exact Total.ok hc'
      · exact ih _ c' (fun y hy => hys y (List.mem_of_mem_eraseIdx hy)) hc'
    all_goals exact plain (by intro q h; cases h)
end

theorem Ends.error {E : Prop} {e : PyErr} (h : E) : Ends E (some (.error e)) := ⟨_, rfl, fun _ _ => h⟩

/-- comparing an entity with a tuple -/
theorem eqV_ref_tuple {E : Prop} {U : Nat → List (String × String)} {ent : Nat → Nat → Plain} {o : Nat} {l : List V} (hP : E ∨ Pairs (.tuple l)) :
    Ends E (eqV U ent (.ref o) (.tuple l)) ∧ Ends E (eqV U ent (.tuple l) (.ref o)) := by
  match l with
  | [] => exact ⟨by simp only [eqV]; exact Ends.ok, by simp only [eqV]; exact Ends.ok⟩
  | [_] => exact ⟨by simp only [eqV]; exact Ends.ok, by simp only [eqV]; exact Ends.ok⟩
  | _ :: _ :: _ :: _ => exact ⟨by simp only [eqV]; exact Ends.ok, by simp only [eqV]; exact Ends.ok⟩
  | [a, b] =>
    have : E ∨ ∃ s, a = .str s := hP.imp id (fun h => h a b (self_mem_subs _))
    constructor <;> unfold eqV <;> split <;> first
      | exact Ends.ok
      | (rename_i hv hw; cases hv; done)
      | (rename_i hv hw; cases hw; done)
      | (rename_i hn hv hw
         cases hv; cases hw
         rcases this with h | ⟨s, rfl⟩
         · exact Ends.error h
         · exact absurd rfl (hn _))
      | skip
    all_goals simp_all

/-- comparing values of different shape needs no comparison of entities -/
theorem eqV_shape {E : Prop} {U : Nat → List (String × String)} {ent : Nat → Nat → Plain} {v w : V}
    (h : (iter v).isSome ≠ (iter w).isSome) (hP : E ∨ Pairs v ∧ Pairs w) : Ends E (eqV U ent v w) := by
  cases v <;> cases w <;> simp [iter] at h
  case tuple.ref => exact (eqV_ref_tuple (hP.imp id And.left)).2
  case ref.tuple => exact (eqV_ref_tuple (hP.imp id And.right)).1
  all_goals first
    | (simp only [eqV]; exact Ends.ok)
    | (unfold eqV; split <;> first | exact Ends.ok | simp_all)

/-- comparing an entity with something else needs no comparison of entities -/
theorem eqV_ref_left {E : Prop} {U : Nat → List (String × String)} {ent : Nat → Nat → Plain} {o : Nat} {w : V}
    (h : ∀ q, w ≠ .ref q) (hP : E ∨ Pairs w) : Ends E (eqV U ent (.ref o) w) := by
  cases w
  case tuple l => exact (eqV_ref_tuple hP).1
  case ref q => exact absurd rfl (h q)
  all_goals simp only [eqV]; exact Ends.ok

theorem eqV_ref_right {E : Prop} {U : Nat → List (String × String)} {ent : Nat → Nat → Plain} {o : Nat} {v : V}
    (h : ∀ q, v ≠ .ref q) (hP : E ∨ Pairs v) : Ends E (eqV U ent v (.ref o)) := by
  cases v
  case tuple l => exact (eqV_ref_tuple hP).2
  case ref q => exact absurd rfl (h q)
  all_goals simp only [eqV]; exact Ends.ok

theorem Pairs.inner {v x : V} (h : Pairs v) (hx : ∀ y ∈ x.subs, y ∈ v.subs) : Pairs x := fun a b hab => h a b (hx _ hab)

/-- pairs in lists of values -/
def Pairss (l : List V) : Prop := ∀ x ∈ l, Pairs x

theorem Pairss.of {v : V} {l : List V} (h : Pairs v) (hl : ∀ y ∈ subss l, y ∈ v.subs) : Pairss l :=
  fun x hx => h.inner (fun y hy => hl y (mem_subss.mpr ⟨x, hx, hy⟩))

theorem Ends.and {E : Prop} {p q : Plain} (hp : Ends E p) (hq : Ends E q) : Ends E (p.and q) := by
  obtain ⟨x, rfl, he⟩ := hp
  match x, he with
  | .error e, he => exact ⟨_, rfl, fun _ _ => he e rfl⟩
  | .ok true, _ => exact hq
  | .ok false, _ => exact Ends.ok

theorem get?_zip_mem {K : Type} [DecidableEq K] {ks : List K} {vs : List V} {k : K} {w : V} (h : Dict.get? (ks.zip vs) k = some w) : w ∈ vs :=
  (List.of_mem_zip (Dict.mem_of_get? h)).2

section
variable {U : Nat → List (String × String)} {ent : Nat → Nat → Plain} {P Q : Nat → Prop} {E : Prop}

mutual
/-- plain comparison ends if the comparisons of the entities inside do -/
theorem eqV_total (hent : ∀ o p, P o → Q p → Ends E (ent o p)) (v w : V) (hv : ∀ o, .ref o ∈ v.subs → P o) (hw : ∀ o, .ref o ∈ w.subs → Q o)
    (hP : E ∨ Pairs v ∧ Pairs w) :
    Ends E (eqV U ent v w) := by
  cases v with
  | ref o =>
    by_cases h : ∃ q, w = .ref q
    · obtain ⟨q, rfl⟩ := h
      simp only [eqV]
      split
      · exact Ends.ok
      · exact hent o q (hv o (self_mem_subs _)) (hw q (self_mem_subs _))
    · exact eqV_ref_left (fun q hq => h ⟨q, hq⟩) (hP.imp id And.right)
  | list l =>
    cases w with
    | list l' =>
      simp only [eqV]
      split
      · exact eqVs_total hent l l' (fun o h => hv o (by simp only [V.subs, List.mem_cons]; exact Or.inr h))
          (fun o h => hw o (by simp only [V.subs, List.mem_cons]; exact Or.inr h)) (hP.imp id (fun h => ⟨Pairss.of h.1 (fun y hy => by simp only [V.subs, List.mem_cons]; exact Or.inr hy), Pairss.of h.2 (fun y hy => by simp only [V.subs, List.mem_cons]; exact Or.inr hy)⟩))
      · exact Ends.ok
    | _ => (simp only [eqV]; exact Ends.ok)
  | tuple l =>
    cases w with
    | tuple l' =>
      simp only [eqV]
      split
      · exact eqVs_total hent l l' (fun o h => hv o (by simp only [V.subs, List.mem_cons]; exact Or.inr h))
          (fun o h => hw o (by simp only [V.subs, List.mem_cons]; exact Or.inr h)) (hP.imp id (fun h => ⟨Pairss.of h.1 (fun y hy => by simp only [V.subs, List.mem_cons]; exact Or.inr hy), Pairss.of h.2 (fun y hy => by simp only [V.subs, List.mem_cons]; exact Or.inr hy)⟩))
      · exact Ends.ok
    | link s i => exact eqV_shape (by simp [iter]) hP
    | ref o => exact eqV_shape (by simp [iter]) hP
    | _ => (simp only [eqV]; exact Ends.ok)
  | dict ks vs =>
    cases w with
    | dict ks' vs' =>
      simp only [eqV]
      split
      · exact eqItems_total hent ks' vs' ks vs
          (fun o h => hv o (by simp only [V.subs, List.mem_cons, List.mem_append]; exact Or.inr (Or.inr h)))
          (fun o h => hw o (by simp only [V.subs, List.mem_cons, List.mem_append]; exact Or.inr (Or.inr h))) (hP.imp id (fun h => ⟨Pairss.of h.1 (fun y hy => by simp only [V.subs, List.mem_cons, List.mem_append]; exact Or.inr (Or.inr hy)), Pairss.of h.2 (fun y hy => by simp only [V.subs, List.mem_cons, List.mem_append]; exact Or.inr (Or.inr hy))⟩))
      · exact Ends.ok
    | _ => (simp only [eqV]; exact Ends.ok)
  | obj t ns vs =>
    cases w with
    | obj t' ns' vs' =>
      simp only [eqV]
      split
      · exact eqAttrs_total hent ns' vs' ns vs (fun o h => hv o (by simp only [V.subs, List.mem_cons]; exact Or.inr h))
          (fun o h => hw o (by simp only [V.subs, List.mem_cons]; exact Or.inr h)) (hP.imp id (fun h => ⟨Pairss.of h.1 (fun y hy => by simp only [V.subs, List.mem_cons]; exact Or.inr hy), Pairss.of h.2 (fun y hy => by simp only [V.subs, List.mem_cons]; exact Or.inr hy)⟩))
      · exact Ends.ok
    | _ => (simp only [eqV]; exact Ends.ok)
  | link s i =>
    cases w with
    | tuple l => exact eqV_shape (by simp [iter]) hP
    | _ => (simp only [eqV]; exact Ends.ok)
  | none => (cases w <;> simp only [eqV] <;> exact Ends.ok)
  | str s => (cases w <;> simp only [eqV] <;> exact Ends.ok)
  | bool b => simp only [eqV]; exact Ends.ok
  | int b => simp only [eqV]; exact Ends.ok
  | float b => simp only [eqV]; exact Ends.ok
theorem eqVs_total (hent : ∀ o p, P o → Q p → Ends E (ent o p)) (l l' : List V) (hv : ∀ o, .ref o ∈ subss l → P o)
    (hw : ∀ o, .ref o ∈ subss l' → Q o) (hP : E ∨ Pairss l ∧ Pairss l') : Ends E (eqVs U ent l l') := by
  cases l with
  | nil => cases l' <;> simp only [eqVs] <;> exact Ends.ok
  | cons v vs =>
    cases l' with
    | nil => simp only [eqVs]; exact Ends.ok
    | cons w ws =>
      simp only [eqVs]
      refine Ends.and (eqV_total hent v w (fun o h => hv o ?_) (fun o h => hw o ?_) (hP.imp id (fun h => ⟨h.1 v List.mem_cons_self, h.2 w List.mem_cons_self⟩)))
        (eqVs_total hent vs ws (fun o h => hv o ?_) (fun o h => hw o ?_)
          (hP.imp id (fun h => ⟨fun x hx => h.1 x (List.mem_cons_of_mem _ hx), fun x hx => h.2 x (List.mem_cons_of_mem _ hx)⟩))) <;>
        simp only [subss, List.mem_append] <;> simp [h]
theorem eqItems_total (hent : ∀ o p, P o → Q p → Ends E (ent o p)) (ks' vs' ks vs : List V) (hv : ∀ o, .ref o ∈ subss vs → P o)
    (hw : ∀ o, .ref o ∈ subss vs' → Q o) (hP : E ∨ Pairss vs ∧ Pairss vs') : Ends E (eqItems U ent ks' vs' ks vs) := by
  cases vs with
  | nil => cases ks <;> simp only [eqItems] <;> exact Ends.ok
  | cons v vs =>
    cases ks with
    | nil => simp only [eqItems]; exact Ends.ok
    | cons k ks =>
      simp only [eqItems]
      split
      · rename_i w hw'
        exact Ends.and (eqV_total hent v w (fun o h => hv o (by simp only [subss, List.mem_append]; exact Or.inl h))
          (fun o h => hw o (mem_subss.mpr ⟨w, get?_zip_mem hw', h⟩)) (hP.imp id (fun h => ⟨h.1 v List.mem_cons_self, h.2 w (get?_zip_mem hw')⟩)))
          (eqItems_total hent ks' vs' ks vs (fun o h => hv o (by simp only [subss, List.mem_append]; exact Or.inr h)) hw (hP.imp id (fun h => ⟨fun x hx => h.1 x (List.mem_cons_of_mem _ hx), h.2⟩)))
      · exact Ends.ok
theorem eqAttrs_total (hent : ∀ o p, P o → Q p → Ends E (ent o p)) (ns' : List String) (vs' : List V) (ns : List String) (vs : List V)
    (hv : ∀ o, .ref o ∈ subss vs → P o)
    (hw : ∀ o, .ref o ∈ subss vs' → Q o) (hP : E ∨ Pairss vs ∧ Pairss vs') : Ends E (eqAttrs U ent ns' vs' ns vs) := by
  cases vs with
  | nil => cases ns <;> simp only [eqAttrs] <;> exact Ends.ok
  | cons v vs =>
    cases ns with
    | nil => simp only [eqAttrs]; exact Ends.ok
    | cons k ns =>
      simp only [eqAttrs]
      split
      · rename_i w hw'
        exact Ends.and (eqV_total hent v w (fun o h => hv o (by simp only [subss, List.mem_append]; exact Or.inl h))
          (fun o h => hw o (mem_subss.mpr ⟨w, get?_zip_mem hw', h⟩)) (hP.imp id (fun h => ⟨h.1 v List.mem_cons_self, h.2 w (get?_zip_mem hw')⟩)))
          (eqAttrs_total hent ns' vs' ns vs (fun o h => hv o (by simp only [subss, List.mem_append]; exact Or.inr h)) hw (hP.imp id (fun h => ⟨fun x hx => h.1 x (List.mem_cons_of_mem _ hx), h.2⟩)))
      · exact Ends.ok
end
end

section
variable {U : Nat → List (String × String)} {D : Nat → List (String × V)} {N : Nat} {rank : Nat → Nat}
  {ent : Nat → Nat → Plain} {rec : Cache → Nat → Nat → Run (Option Bool)} {G : Cache → Prop} {R : Nat} {E : Prop}

/-- what is known about a value of a field of an entity of rank at most `R` -/
structure Val (N : Nat) (rank : Nat → Nat) (R : Nat) (v : V) : Prop where
  field : ∀ p, v = .ref p → p < N ∧ rank p ≤ R
  member : ∀ l p, iter v = some l → .ref p ∈ l → p < N ∧ rank p ≤ R
  inner : iter v = none → (∀ q, v ≠ .ref q) → ∀ p, .ref p ∈ v.subs → p < N ∧ rank p < R
  innerMember : ∀ l, iter v = some l → ∀ x ∈ l, (∀ q, x ≠ .ref q) → ∀ p, .ref p ∈ x.subs → p < N ∧ rank p < R

theorem mem_subs_of_iter {v : V} {l : List V} (h : iter v = some l) {x : V} (hx : x ∈ l) {y : V} (hy : y ∈ x.subs) : y ∈ v.subs := by
  cases v <;> simp only [iter, Option.some.injEq, reduceCtorEq] at h <;> subst h <;> simp only [V.subs, List.mem_cons]
  · exact Or.inr (mem_subss.mpr ⟨x, hx, hy⟩)
  · exact Or.inr (mem_subss.mpr ⟨x, hx, hy⟩)
  · exact Or.inr (List.mem_append_left _ (mem_subss.mpr ⟨x, hx, hy⟩))

theorem Ranked.val (h : Ranked D N rank) {o : Nat} (ho : o < N) (hr : rank o ≤ R) {k : String} {v : V} (hv : (k, v) ∈ D o) : Val N rank R v := by
  refine ⟨?_, ?_, ?_, ?_⟩
  · rintro p rfl
    exact ⟨h.closed o ho k _ hv p (self_mem_subs _), Nat.le_trans (h.field o ho k p hv) hr⟩
  · intro l p hl hp
    exact ⟨h.closed o ho k v hv p (mem_subs_of_iter hl hp (self_mem_subs _)), Nat.le_trans (h.member o ho k v l p hv hl hp) hr⟩
  · intro hi hn p hp
    exact ⟨h.closed o ho k v hv p hp, Nat.lt_of_lt_of_le (h.inner o ho k v p hv hi hn hp) hr⟩
  · intro l hl x hx hn p hp
    exact ⟨h.closed o ho k v hv p (mem_subs_of_iter hl hx hp), Nat.lt_of_lt_of_le (h.innerMember o ho k v l x p hv hl hx hn hp) hr⟩

theorem compareOther_total (hrec : ∀ c, G c → ∀ x y, x < N → rank x ≤ R → y < N → rank y ≤ R → Total E G (rec c x y))
    (hent : ∀ o p, (o < N ∧ rank o < R) → (p < N ∧ rank p < R) → Ends E (ent o p)) {v w : V} (hv : Val N rank R v) (hw : Val N rank R w)
    (hn : ¬ ((∃ x, v = .ref x) ∧ ∃ y, w = .ref y)) (hP : E ∨ Pairs v ∧ Pairs w) (hT : E ∨ ∀ l l', iter v = some l → iter w = some l' → (∃ q, .ref q ∈ l) → ∀ y ∈ l', Like y) (ua ub : Bool) (c : Cache) (hc : G c) :
    Total E G (compareOther (eqV U ent) rec ua ub v w c) := by
  unfold compareOther
  have plain : (∀ l l', iter v = some l → iter w = some l' → False) →
      Total E G ((eqV U ent v w).next fun b => some (.ok (b, c))) := by
    intro hnot
    refine Total.plain ?_ (fun b => Total.ok hc)
    by_cases hs : (iter v).isSome ≠ (iter w).isSome
    · exact eqV_shape hs hP
    · have hvn : iter v = none := by
        cases h1 : iter v with
        | none => rfl
        | some l =>
          cases h2 : iter w with
          | none => rw [h1, h2] at hs; simp at hs
          | some l' => exact absurd (hnot l l' h1 h2) id
      have hwn : iter w = none := by
        cases h2 : iter w with
        | none => rfl
        | some l => rw [hvn, h2] at hs; simp at hs
      by_cases h1 : ∃ x, v = .ref x
      · obtain ⟨x, rfl⟩ := h1
        exact eqV_ref_left (fun q hq => hn ⟨⟨x, rfl⟩, q, hq⟩) (hP.imp id And.right)
      · by_cases h2 : ∃ y, w = .ref y
        · obtain ⟨y, rfl⟩ := h2
          exact eqV_ref_right (fun q hq => h1 ⟨q, hq⟩) (hP.imp id And.left)
        · exact eqV_total hent v w (hv.inner hvn (fun q hq => h1 ⟨q, hq⟩)) (hw.inner hwn (fun q hq => h2 ⟨q, hq⟩)) hP
  split
  · rename_i l l' hl hl'
    unfold compareLists
    split
    · exact Total.ok hc
    · refine crawl_total (l' := l') (hT.imp id (fun h => h l l' hl hl')) ?_ ?_ l' c (fun _ h => h) hc
      · intro c hc x hx y hy
        have h1 := hv.member l x hl hx
        have h2 := hw.member l' y hl' hy
        exact hrec c hc x y h1.1 h1.2 h2.1 h2.2
      · intro x hx hxn y hy
        by_cases h2 : ∃ q, y = .ref q
        · obtain ⟨q, rfl⟩ := h2
          exact eqV_ref_left hxn (hP.imp id (fun h => h.1.inner (fun z hz => mem_subs_of_iter hl hx hz)))
        · exact eqV_total hent y x (hw.innerMember l' hl' y hy (fun q hq => h2 ⟨q, hq⟩)) (hv.innerMember l hl x hx hxn)
            (hP.imp id (fun h => ⟨h.2.inner (fun z hz => mem_subs_of_iter hl' hy hz), h.1.inner (fun z hz => mem_subs_of_iter hl hx hz)⟩))
  · rename_i hnot
    exact plain (fun l l' h1 h2 => hnot l l' h1 h2)

theorem compareValue_total (hrec : ∀ c, G c → ∀ x y, x < N → rank x ≤ R → y < N → rank y ≤ R → Total E G (rec c x y))
    (hent : ∀ o p, (o < N ∧ rank o < R) → (p < N ∧ rank p < R) → Ends E (ent o p)) {v w : V} (hv : Val N rank R v) (hw : Val N rank R w)
    (hP : E ∨ Pairs v ∧ Pairs w) (hT : E ∨ ∀ l l', iter v = some l → iter w = some l' → (∃ q, .ref q ∈ l) → ∀ y ∈ l', Like y) (ua ub : Bool) (c : Cache) (hc : G c) : Total E G (compareValue (eqV U ent) rec ua ub v w c) := by
  unfold compareValue
  split
  · rename_i x y
    have h1 := hv.field x rfl
    have h2 := hw.field y rfl
    exact (hrec c hc x y h1.1 h1.2 h2.1 h2.2).next (fun _ _ hc' => Total.ok hc')
  · rename_i hn
    exact compareOther_total hrec hent hv hw (by rintro ⟨⟨x, rfl⟩, y, rfl⟩; exact hn x y rfl rfl) hP hT ua ub c hc

theorem compareFields_total (hrec : ∀ c, G c → ∀ x y, x < N → rank x ≤ R → y < N → rank y ≤ R → Total E G (rec c x y))
    (hent : ∀ o p, (o < N ∧ rank o < R) → (p < N ∧ rank p < R) → Ends E (ent o p)) {d' : List (String × V)}
    (hd' : ∀ k v, (k, v) ∈ d' → Val N rank R v) (ua ub : Bool) :
    ∀ (fs : List (String × V)) (c : Cache), (E ∨ ∀ k v, (k, v) ∈ fs → k ∈ Dict.keys d' ∧ Pairs v ∧ ∀ w, (k, w) ∈ d' → Pairs w ∧
        ∀ l l', iter v = some l → iter w = some l' → (∃ q, .ref q ∈ l) → ∀ y ∈ l', Like y) → (∀ k v, (k, v) ∈ fs → Val N rank R v) → G c →
      Total E G (compareFields (eqV U ent) rec ua ub d' fs c) := by
  intro fs
  induction fs with
  | nil => intro c _ _ hc; exact Total.ok hc
  | cons f fs ih =>
    intro c hE hfs hc
    obtain ⟨k, v⟩ := f
    simp only [compareFields]
    split
    · rename_i hnone
      refine Total.error ?_
      rcases hE with h | h
      · exact h
      · exact absurd (h k v List.mem_cons_self).1 (Dict.get?_eq_none_iff.mp hnone)
    · rename_i w hw
      refine (compareValue_total hrec hent (hfs k v List.mem_cons_self) (hd' k w (Dict.mem_of_get? hw))
        (hE.imp id (fun h => ⟨(h k v List.mem_cons_self).2.1, ((h k v List.mem_cons_self).2.2 w (Dict.mem_of_get? hw)).1⟩))
        (hE.imp id (fun h => ((h k v List.mem_cons_self).2.2 w (Dict.mem_of_get? hw)).2)) ua ub c hc).next ?_
      intro b c' hc'
      cases b
      · simpa using Total.ok hc'
      · simpa using ih c' (hE.imp id (fun h k v hk => h k v (List.mem_cons_of_mem _ hk))) (fun k v h => hfs k v (List.mem_cons_of_mem _ h)) hc'
end

/-- all keys -/
def pairs (N : Nat) : List (Nat × Nat) := (List.range N).flatMap (fun a => (List.range N).map (fun b => (a, b)))

theorem mem_pairs {N a b : Nat} : (a, b) ∈ pairs N ↔ a < N ∧ b < N := by
  simp [pairs]

theorem length_pairs (N : Nat) : (pairs N).length = N * N := by
  simp [pairs, List.length_flatMap, List.map_const', List.sum_replicate_nat]

/-- the number of pairs that are not in the cache -/
abbrev left (N : Nat) (c : Cache) : Nat := Verif.Traverse.unseen (pairs N) (Dict.keys c)

theorem left_mono {N : Nat} {c c' : Cache} (h : ∀ k, k ∈ Dict.keys c → k ∈ Dict.keys c') : left N c' ≤ left N c := by
  unfold left Verif.Traverse.unseen
  have gen : ∀ (l : List (Nat × Nat)) (p q : Nat × Nat → Bool), (∀ k, p k = true → q k = true) → (l.filter p).length ≤ (l.filter q).length := by
    intro l p q hpq
    induction l with
    | nil => simp
    | cons k l ih =>
      simp only [List.filter_cons]
      split
      · rename_i h1
        rw [if_pos (hpq k h1)]
        simp only [List.length_cons]
        omega
      · split
        · simp only [List.length_cons]; omega
        · exact ih
  apply gen
  intro k hk
  simp only [decide_eq_true_eq] at hk ⊢
  exact fun h1 => hk (h k h1)

theorem left_set {N : Nat} {c : Cache} {k : Nat × Nat} {r : Option Bool} (hk : k ∈ pairs N) (hc : k ∉ Dict.keys c) :
    left N (Dict.set c k r) < left N c := by
  have h1 := Verif.Traverse.unseen_lt hk hc
  have h2 : left N (Dict.set c k r) ≤ Verif.Traverse.unseen (pairs N) (k :: Dict.keys c) := by
    unfold left
    rw [Dict.keys_set, if_neg hc]
    unfold Verif.Traverse.unseen
    apply Nat.le_of_eq
    congr 1
    apply List.filter_congr
    intro x _
    simp [and_comm]
  exact Nat.lt_of_le_of_lt h2 h1

/-- C33, one level: with plain comparisons that end, `_cached_equals` ends; it raises only if `E` -/
theorem cachedEquals_total {U : Nat → List (String × String)} {D : Nat → List (String × V)} {N : Nat} {rank : Nat → Nat} (h : Ranked D N rank)
    {E : Prop} (hE : E ∨ ∃ kt, Typed D kt)
    {ent : Nat → Nat → Plain} {R : Nat} (hent : ∀ o p, (o < N ∧ rank o < R) → (p < N ∧ rank p < R) → Ends E (ent o p)) :
    ∀ (n : Nat) (c : Cache) (a b : Nat), a < N → rank a ≤ R → b < N → rank b ≤ R → left N c < n →
      Total E (fun c' => ∀ k, k ∈ Dict.keys c → k ∈ Dict.keys c') (cachedEquals U D (eqV U ent) n c a b) := by
  intro n
  induction n with
  | zero => intro c a b _ _ _ _ hl; omega
  | succ n ih =>
    intro c a b ha hra hb hrb hl
    simp only [cachedEquals, body]
    split
    · exact Total.ok (fun _ h => h)
    · rename_i hnone
      have hnot : key a b ∉ Dict.keys c := Dict.get?_eq_none_iff.mp hnone
      have hmono : ∀ (c : Cache) (r : Option Bool), ∀ k, k ∈ Dict.keys c → k ∈ Dict.keys (Dict.set c (key a b) r) := by
        intro c r k hk
        rw [Dict.keys_set]
        split
        · exact hk
        · exact List.mem_append_left _ hk
      have hkey : key a b ∈ pairs N := by
        unfold key
        rw [mem_pairs]
        omega
      split
      · exact Total.ok (fun k hk => hmono _ _ k (hmono _ _ k hk))
      · rename_i hkeys
        split
        · exact Total.ok (fun k hk => hmono _ _ k (hmono _ _ k hk))
        · have hG : Total E (fun c' => ∀ k, k ∈ Dict.keys (Dict.set c (key a b) none) → k ∈ Dict.keys c')
              (compareFields (eqV U ent) (cachedEquals U D (eqV U ent) n) (!(U a).isEmpty) (!(U b).isEmpty) (D b) (D a) (Dict.set c (key a b) none)) := by
            refine compareFields_total ?_ hent (fun k v hv => h.val hb hrb hv) _ _ (D a) _ ?_ (fun k v hv => h.val ha hra hv) (fun _ h => h)
            · intro c' hc' x y hx hrx hy hry
              have hlt : left N c' < n := by
                have h1 := left_mono (N := N) hc'
                have h2 := left_set (N := N) (r := none) hkey hnot
                omega
              obtain ⟨r, hr1, hr2, hr3⟩ := ih c' x y hx hrx hy hry hlt
              exact ⟨r, hr1, hr2, fun a c'' e k hk => hr3 a c'' e k (hc' k hk)⟩
            · refine hE.imp id ?_
              rintro ⟨kt, hT⟩ k v hv
              refine ⟨?_, hT.pairs a k v hv, ?_⟩
              · simp only [sameKeys, Bool.not_eq_true', Bool.not_eq_false, Bool.and_eq_true, List.all_eq_true, decide_eq_true_eq] at hkeys
                exact hkeys.1 _ hv
              · intro w hw
                refine ⟨hT.pairs b k w hw, ?_⟩
                rintro l l' hl hl' ⟨q, hq⟩ y hy
                cases hk : kt k with
                | true => exact hT.entities b k w l' hw hk hl' y hy
                | false => exact absurd rfl (hT.plain a k v l hv hk hl _ hq q)
          obtain ⟨r, hr1, hr2, hr3⟩ := hG
          rw [hr1]
          cases r with
          | error e => exact Total.error (hr2 e rfl)
          | ok p => obtain ⟨v, c2⟩ := p; exact Total.ok (fun k hk => hmono _ _ k (hr3 v c2 rfl k (hmono _ _ k hk)))

theorem equals_ends {U : Nat → List (String × String)} {D : Nat → List (String × V)} {N : Nat} {rank : Nat → Nat} (h : Ranked D N rank)
    {E : Prop} (hE : E ∨ ∃ kt, Typed D kt) (n : Nat) (hn : N * N < n) :
    ∀ (k a b : Nat), a < N → b < N → rank a < k → rank b < k → Ends E (equals U D n k a b) := by
  intro k
  induction k with
  | zero => intro a b _ _ h0; omega
  | succ k ih =>
    intro a b ha hb hra hrb
    have hl : left N [] < n := by
      have : left N [] ≤ (pairs N).length := List.length_filter_le _ _
      rw [length_pairs] at this
      omega
    obtain ⟨r, hr, he, _⟩ := cachedEquals_total (U := U) h hE (ent := equals U D n k) (R := k)
      (by
        rintro o p ⟨h1, h2⟩ ⟨h3, h4⟩
        exact ih o p h1 h3 h2 h4)
      n [] a b ha (by omega) hb (by omega) hl
    simp only [equals, entityEq, hr]
    cases r with
    | error e => exact ⟨_, rfl, fun _ _ => he e rfl⟩
    | ok p => obtain ⟨v, c⟩ := p; exact Ends.ok

/-- C33. Comparing two entities ends, in every finite object graph, however cyclic, as long as the entities inside plain values (the
templates inside attributes) do not lead back (`Ranked`). The recursion is at most `N * N + 1` calls deep in each plain value.
Missing for the full statement: graphs that are cyclic through plain values; see the counterexample. -/
theorem C33_terminates_partial {U : Nat → List (String × String)} {D : Nat → List (String × V)} {N : Nat} {rank : Nat → Nat} (h : Ranked D N rank)
    (n : Nat) (hn : N * N < n) (k a b : Nat) (ha : a < N) (hb : b < N) (hra : rank a < k) (hrb : rank b < k) :
    ∃ r, equals U D n k a b = some r := by
  obtain ⟨r, hr, _⟩ := equals_ends (U := U) h (E := True) (Or.inl trivial) n hn k a b ha hb hra hrb
  exact ⟨r, hr⟩

/-- C33. With entities only in the lists that are for entities (`Typed`), the comparison does not raise either: it answers True or
False. -/
theorem C33_answers_partial {U : Nat → List (String × String)} {D : Nat → List (String × V)} {N : Nat} {rank : Nat → Nat} (h : Ranked D N rank)
    {kt : String → Bool} (ht : Typed D kt) (n : Nat) (hn : N * N < n) (k a b : Nat) (ha : a < N) (hb : b < N) (hra : rank a < k) (hrb : rank b < k) :
    ∃ r, equals U D n k a b = some (.ok r) := by
  obtain ⟨r, hr, he⟩ := equals_ends (U := U) h (E := False) (Or.inr ⟨kt, ht⟩) n hn k a b ha hb hra hrb
  cases r with
  | error e => exact absurd (he e rfl) id
  | ok b => exact ⟨b, hr⟩

end Verif.Equal
