import Verif.Props.EqualRefl
/-!
# C34: copies of object graphs compare equal
-/
set_option linter.unusedSimpArgs false
set_option linter.unusedSectionVars false
set_option linter.unusedVariables false

namespace Verif.Equal
open Verif.Py Verif.Value

/-! ## Copies -/

mutual
/-- The second value is the first with the entities replaced by corresponding ones. Numbers may have another type and dictionaries another
order. -/
inductive Mapped (R : Nat → Nat → Prop) : V → V → Prop
  | none : Mapped R .none .none
  | num {v w : V} {q : Rat} (hv : num v = some q) (hw : num w = some q) : Mapped R v w
  | str (s : String) : Mapped R (.str s) (.str s)
  | link (s i : String) : Mapped R (.link s i) (.link s i)
  | list {l l' : List V} (h : MappedL R l l') : Mapped R (.list l) (.list l')
  | tuple {l l' : List V} (h : MappedL R l l') : Mapped R (.tuple l) (.tuple l')
  | dict {ks vs ks' vs' : List V} {ps : List (V × V)} (hl : ks.length = vs.length) (hl' : ks'.length = vs'.length) (h : MappedD R (ks.zip vs) ps)
      (hp : ps.Perm (ks'.zip vs')) : Mapped R (.dict ks vs) (.dict ks' vs')
  | obj (t : String) (ns : List String) {vs vs' : List V} (h : MappedL R vs vs') : Mapped R (.obj t ns vs) (.obj t ns vs')
  | ref {p q : Nat} (h : R p q) : Mapped R (.ref p) (.ref q)
/-- element by element -/
inductive MappedL (R : Nat → Nat → Prop) : List V → List V → Prop
  | nil : MappedL R [] []
  | cons {v w : V} {vs ws : List V} (h : Mapped R v w) (hs : MappedL R vs ws) : MappedL R (v :: vs) (w :: ws)
/-- item by item, the keys being the same -/
inductive MappedD (R : Nat → Nat → Prop) : List (V × V) → List (V × V) → Prop
  | nil : MappedD R [] []
  | cons {k v w : V} {vs ws : List (V × V)} (h : Mapped R v w) (hs : MappedD R vs ws) : MappedD R ((k, v) :: vs) ((k, w) :: ws)
end

theorem MappedD.swap {R : Nat → Nat → Prop} {m l' : List (V × V)} (hp : m.Perm l') : ∀ {l : List (V × V)}, MappedD R m l → ∃ m', m'.Perm l ∧ MappedD R l' m' := by
  induction hp with
  | nil => intro l h; cases h; exact ⟨[], .nil, .nil⟩
  | cons x _ ih =>
    intro l h
    cases h with
    | cons h hs =>
      obtain ⟨m', h1, h2⟩ := ih hs
      exact ⟨_, .cons _ h1, .cons h h2⟩
  | swap x y l =>
    intro l h
    cases h with
    | cons h hs =>
      cases hs with
      | cons h' hs => exact ⟨_, .swap _ _ _, .cons h' (.cons h hs)⟩
  | trans _ _ ih1 ih2 =>
    intro l h
    obtain ⟨m1, h1, h2⟩ := ih1 h
    obtain ⟨m2, h3, h4⟩ := ih2 h2
    exact ⟨m2, h3.trans h1, h4⟩

theorem MappedD.keys {R : Nat → Nat → Prop} : ∀ {l l' : List (V × V)}, MappedD R l l' → l.map Prod.fst = l'.map Prod.fst
  | _, _, .nil => rfl
  | _, _, .cons _ hs => by simp [hs.keys]

/-- Corresponding values of a key: an entity and its copy; lists with the same elements up to order; or plain values. -/
inductive VCopy (R : Nat → Nat → Prop) : V → V → Prop
  | ref {p q : Nat} (h : R p q) : VCopy R (.ref p) (.ref q)
  | list {v w : V} {l l' l'' : List V} (hv : iter v = some l) (hw : iter w = some l') (h : MappedL R l l'') (hp : l''.Perm l') : VCopy R v w
  | plain {v w : V} (hv : iter v = none) (hw : iter w = none) (h : Mapped R v w) : VCopy R v w

/-- two entities that `_cached_equals` tells apart at first sight: different uids, or different keys -/
def Differ (U : Nat → List (String × String)) (D : Nat → List (String × V)) (p q : Nat) : Prop :=
  (∃ s, Dict.get? (U p) s ≠ Dict.get? (U q) s) ∨ ∃ k, ¬ (k ∈ Dict.keys (D p) ↔ k ∈ Dict.keys (D q))

/-- `R` relates each entity of a graph to its copy: a one-to-one correspondence that respects the uids, the keys and the values of the
keys, up to the order in lists. -/
structure Alike (U : Nat → List (String × String)) (D : Nat → List (String × V)) (R : Nat → Nat → Prop) : Prop where
  unique : ∀ p q q', R p q → R p q' → q = q'
  unique' : ∀ p p' q, R p q → R p' q → p = p'
  uids : ∀ a b, R a b → ∀ s, Dict.get? (U a) s = Dict.get? (U b) s
  keys : ∀ a b, R a b → ∀ k, k ∈ Dict.keys (D a) ↔ k ∈ Dict.keys (D b)
  vals : ∀ a b, R a b → ∀ k v w, (k, v) ∈ D a → (k, w) ∈ D b → VCopy R v w

/-- Moreover, two entities in corresponding lists that do not correspond differ in uids (or keys), as they do whenever all entities have
uids. -/
structure Copies (U : Nat → List (String × String)) (D : Nat → List (String × V)) (R : Nat → Nat → Prop) : Prop extends Alike U D R where
  apart : ∀ a b, R a b → ∀ k v w l l' p q, (k, v) ∈ D a → (k, w) ∈ D b → iter v = some l → iter w = some l' → .ref p ∈ l → .ref q ∈ l' →
    ¬ R p q → Differ U D p q

mutual
theorem Mapped.symm {R : Nat → Nat → Prop} : ∀ {v w : V}, Mapped R v w → Mapped (fun x y => R y x) w v
  | _, _, .none => .none
  | _, _, .num hv hw => .num hw hv
  | _, _, .str _ => .str _
  | _, _, .link _ _ => .link _ _
  | _, _, .list h => .list (MappedL.symm h)
  | _, _, .tuple h => .tuple (MappedL.symm h)
  | _, _, .dict hl hl' h hp =>
    have h' := MappedD.symm h
    match MappedD.swap hp h' with
    | ⟨_, h1, h2⟩ => .dict hl' hl h2 h1
  | _, _, .obj t ns h => .obj t ns (MappedL.symm h)
  | _, _, .ref h => .ref h
theorem MappedL.symm {R : Nat → Nat → Prop} : ∀ {l l' : List V}, MappedL R l l' → MappedL (fun x y => R y x) l' l
  | _, _, .nil => .nil
  | _, _, .cons h hs => .cons (Mapped.symm h) (MappedL.symm hs)
theorem MappedD.symm {R : Nat → Nat → Prop} : ∀ {l l' : List (V × V)}, MappedD R l l' → MappedD (fun x y => R y x) l' l
  | _, _, .nil => .nil
  | _, _, .cons h hs => .cons (Mapped.symm h) (MappedD.symm hs)
end

theorem MappedL.perm {R : Nat → Nat → Prop} {m l' : List V} (hp : m.Perm l') : ∀ {l : List V}, MappedL R l m → ∃ m', l.Perm m' ∧ MappedL R m' l' := by
  induction hp with
  | nil => intro l h; cases h; exact ⟨[], .nil, .nil⟩
  | cons x _ ih =>
    intro l h
    cases h with
    | cons h hs =>
      obtain ⟨m', h1, h2⟩ := ih hs
      exact ⟨_, .cons _ h1, .cons h h2⟩
  | swap x y l =>
    intro l h
    cases h with
    | cons h hs =>
      cases hs with
      | cons h' hs => exact ⟨_, .swap _ _ _, .cons h' (.cons h hs)⟩
  | trans _ _ ih1 ih2 =>
    intro l h
    obtain ⟨m1, h1, h2⟩ := ih1 h
    obtain ⟨m2, h3, h4⟩ := ih2 h2
    exact ⟨m2, h1.trans h3, h4⟩

theorem VCopy.symm {R : Nat → Nat → Prop} {v w : V} (h : VCopy R v w) : VCopy (fun x y => R y x) w v := by
  cases h with
  | ref h => exact .ref h
  | list hv hw h hp =>
    obtain ⟨m', h1, h2⟩ := h.perm hp
    exact .list hw hv h2.symm h1.symm
  | plain hv hw h => exact .plain hw hv h.symm

theorem Differ.symm {U : Nat → List (String × String)} {D : Nat → List (String × V)} {p q : Nat} (h : Differ U D p q) : Differ U D q p := by
  rcases h with ⟨s, h⟩ | ⟨k, h⟩
  · exact Or.inl ⟨s, fun e => h e.symm⟩
  · exact Or.inr ⟨k, fun e => h e.symm⟩

theorem Copies.symm {U : Nat → List (String × String)} {D : Nat → List (String × V)} {R : Nat → Nat → Prop} (h : Copies U D R) :
    Copies U D (fun x y => R y x) :=
  ⟨⟨fun p q q' h1 h2 => h.unique' q q' p h1 h2, fun p p' q h1 h2 => h.unique q p p' h1 h2, fun a b hr s => (h.uids b a hr s).symm,
    fun a b hr k => (h.keys b a hr k).symm, fun a b hr k v w hv hw => (h.vals b a hr k w v hw hv).symm⟩,
    fun a b hr k v w l l' p q hv hw hl hl' hp hq hn => (h.apart b a hr k w v l' l q p hw hv hl' hl hq hp hn).symm⟩

theorem Copies.not_differ {U : Nat → List (String × String)} {D : Nat → List (String × V)} {R : Nat → Nat → Prop} (h : Copies U D R) {p q : Nat}
    (hr : R p q) : ¬ Differ U D p q := by
  rintro (⟨s, hs⟩ | ⟨k, hk⟩)
  · exact hs (h.uids p q hr s)
  · exact hk (h.keys p q hr k)

/-! ## Plain values -/

/-- if there is an answer, it is True -/
def Sure (r : Plain) : Prop := ∀ b, r = some (.ok b) → b = true

theorem Sure.ok : Sure (some (.ok true)) := by intro b h; cases h; rfl

theorem Sure.and {p q : Plain} (hp : Sure p) (hq : Sure q) : Sure (p.and q) := by
  intro b h
  match p, hp with
  | none, _ => cases h
  | some (.error _), _ => cases h
  | some (.ok true), _ => exact hq b h
  | some (.ok false), hp => exact absurd (hp false rfl) (by simp)

theorem MappedL.length {R : Nat → Nat → Prop} : ∀ {l l' : List V}, MappedL R l l' → l.length = l'.length
  | _, _, .nil => rfl
  | _, _, .cons _ hs => by simp [hs.length]

section
variable {U : Nat → List (String × String)} {ent : Nat → Nat → Plain} {R : Nat → Nat → Prop}

mutual
theorem eqV_mapped (hent : ∀ p q, R p q → Sure (ent p q)) (v w : V) (h : Mapped R v w) (hs : ShapeOk v) : Sure (eqV U ent v w) := by
  cases v with
  | ref p =>
    cases h with
    | ref h =>
      simp only [eqV]
      split
      · exact Sure.ok
      · exact hent _ _ h
    | num hv => simp [num] at hv
  | list l =>
    cases h with
    | num hv => simp [num] at hv
    | list h =>
      simp only [eqV, h.length, if_true]
      exact eqVs_mapped hent l _ h (fun x hx => hs.sub (by simp only [V.subs, List.mem_cons]; exact Or.inr (mem_subss.mpr ⟨x, hx, self_mem_subs _⟩)))
  | tuple l =>
    cases h with
    | num hv => simp [num] at hv
    | tuple h =>
      simp only [eqV, h.length, if_true]
      exact eqVs_mapped hent l _ h (fun x hx => hs.sub (by simp only [V.subs, List.mem_cons]; exact Or.inr (mem_subss.mpr ⟨x, hx, self_mem_subs _⟩)))
  | dict ks vs =>
    cases h with
    | num hv => simp [num] at hv
    | @dict _ _ ks' vs' ps hl hl' h hp =>
      have g := (hs _ (self_mem_subs _)).1 ks vs rfl
      have hlen : ks.length = ks'.length := by
        have h1 := congrArg List.length h.keys
        have h2 := hp.length_eq
        simp only [List.length_map, List.length_zip] at h1 h2
        omega
      have hks : (ks.zip vs).map Prod.fst = ks := List.map_fst_zip (by omega)
      have hn : Dict.WF (ks'.zip vs') := by
        have := (hp.map Prod.fst).nodup_iff.1 (by rw [← h.keys, hks]; exact g.1)
        exact this
      simp only [eqV, hlen, if_true]
      exact eqItems_mapped hent ks' vs' ks vs ps h (fun e he => Dict.get?_of_mem hn (hp.subset he)) hl
        (fun x hx => hs.sub (by simp only [V.subs, List.mem_cons, List.mem_append]; exact Or.inr (Or.inr (mem_subss.mpr ⟨x, hx, self_mem_subs _⟩))))
  | obj t ns vs =>
    cases h with
    | num hv => simp [num] at hv
    | obj _ _ h =>
      simp only [eqV, and_self, if_true]
      have g := (hs _ (self_mem_subs _)).2 t ns vs rfl
      exact eqAttrs_mapped hent ns _ [] [] ns vs _ rfl rfl rfl g.2 g.1 h
        (fun x hx => hs.sub (by simp only [V.subs, List.mem_cons]; exact Or.inr (mem_subss.mpr ⟨x, hx, self_mem_subs _⟩)))
  | none =>
    cases h with
    | num hv => simp [num] at hv
    | none => simp only [eqV]; exact Sure.ok
  | str =>
    cases h with
    | num hv => simp [num] at hv
    | str => simp only [eqV, beq_self_eq_true]; exact Sure.ok
  | bool => cases h with | num hv hw => simp only [eqV, hv, hw, beq_self_eq_true]; exact Sure.ok
  | int => cases h with | num hv hw => simp only [eqV, hv, hw, beq_self_eq_true]; exact Sure.ok
  | float => cases h with | num hv hw => simp only [eqV, hv, hw, beq_self_eq_true]; exact Sure.ok
  | link =>
    cases h with
    | num hv => simp [num] at hv
    | link => simp only [eqV, beq_self_eq_true, Bool.and_self]; exact Sure.ok
termination_by structural v
theorem eqVs_mapped (hent : ∀ p q, R p q → Sure (ent p q)) (l l' : List V) (h : MappedL R l l') (hl : ∀ x ∈ l, ShapeOk x) : Sure (eqVs U ent l l') := by
  cases l with
  | nil => cases h; simp only [eqVs]; exact Sure.ok
  | cons v vs =>
    cases h with
    | cons h hs =>
      simp only [eqVs]
      exact (eqV_mapped hent v _ h (hl v List.mem_cons_self)).and (eqVs_mapped hent vs _ hs (fun x hx => hl x (List.mem_cons_of_mem _ hx)))
termination_by structural l
theorem eqItems_mapped (hent : ∀ p q, R p q → Sure (ent p q)) (ks' vs' ks vs : List V) (ps : List (V × V)) (h : MappedD R (ks.zip vs) ps)
    (hg : ∀ e ∈ ps, Dict.get? (ks'.zip vs') e.1 = some e.2) (hlen : ks.length = vs.length) (hl : ∀ x ∈ vs, ShapeOk x) :
    Sure (eqItems U ent ks' vs' ks vs) := by
  cases vs with
  | nil => cases ks <;> simp only [eqItems] <;> exact Sure.ok
  | cons v vs =>
    cases ks with
    | nil => simp only [eqItems]; exact Sure.ok
    | cons k ks =>
      rw [List.zip_cons_cons] at h
      cases h with
      | @cons _ _ w _ ws h hs =>
        simp only [eqItems, hg _ List.mem_cons_self]
        exact (eqV_mapped hent v _ h (hl v List.mem_cons_self)).and
          (eqItems_mapped hent ks' vs' ks vs ws hs (fun e he => hg e (List.mem_cons_of_mem _ he)) (by simpa using hlen)
            (fun x hx => hl x (List.mem_cons_of_mem _ hx)))
termination_by structural vs
theorem eqAttrs_mapped (hent : ∀ p q, R p q → Sure (ent p q)) (ks' : List String) (vs' : List V) (pre : List String) (pre' : List V) (ks : List String)
    (vs ws : List V) (hk : ks' = pre ++ ks) (hvs : vs' = pre' ++ ws)
    (hp : pre.length = pre'.length) (hlen : ks.length = vs.length) (hn : ks'.Nodup) (h : MappedL R vs ws) (hl : ∀ x ∈ vs, ShapeOk x) :
    Sure (eqAttrs U ent ks' vs' ks vs) := by
  cases vs with
  | nil => cases ks <;> simp only [eqAttrs] <;> exact Sure.ok
  | cons v vs =>
    cases ks with
    | nil => simp only [eqAttrs]; exact Sure.ok
    | cons k ks =>
      cases h with
      | @cons _ w _ ws h hs =>
        have h1 : Dict.get? (ks'.zip vs') k = some w := by
          rw [hk] at hn ⊢; rw [hvs]
          exact get?_zip_at k w ks ws pre pre' hp hn
        simp only [eqAttrs, h1]
        exact (eqV_mapped hent v _ h (hl v List.mem_cons_self)).and
          (eqAttrs_mapped hent ks' vs' (pre ++ [k]) (pre' ++ [w]) ks vs ws (by simp [hk]) (by simp [hvs]) (by simp [hp]) (by simpa using hlen) hn hs
            (fun x hx => hl x (List.mem_cons_of_mem _ hx)))
termination_by structural vs
end
end

/-! ## Lists -/

theorem isIn_sure {eqv : V → V → Plain} {x y : V} (hx : Sure (eqv y x)) {c : Cache} : ∀ {ys : List V}, y ∈ ys →
    Post (isIn eqv x c ys) (fun b _ => b = true) := by
  intro ys
  induction ys with
  | nil => intro h; cases h
  | cons z ys ih =>
    intro h
    simp only [isIn]
    refine Post.plain ?_
    intro b hb
    cases b
    · rcases List.mem_cons.mp h with rfl | h
      · exact absurd (hx false hb) (by simp)
      · simpa using ih h
    · exact Post.ok rfl

theorem memOf_sure {eqv : V → V → Plain} {x y : V} (hx : Sure (eqv y x)) {ys : List V} (h : y ∈ ys) : memOf eqv x ys = true := by
  unfold memOf
  rw [decide_eq_true_eq]
  intro e
  have := isIn_sure hx h false [] e
  cases this

open Classical in
theorem first_yes {t : Nat → Nat → Option Bool} {u : V} : ∀ {ys : List V}, (∃ v ∈ ys, Yes t u v) →
    ∃ pre v post, ys = pre ++ v :: post ∧ (∀ w ∈ pre, ¬ Yes t u w) ∧ Yes t u v := by
  intro ys
  induction ys with
  | nil => rintro ⟨v, hv, _⟩; cases hv
  | cons y ys ih =>
    intro h
    by_cases hy : Yes t u y
    · exact ⟨[], y, ys, rfl, by simp, hy⟩
    · have : ∃ v ∈ ys, Yes t u v := by
        obtain ⟨v, hv, h⟩ := h
        rcases List.mem_cons.mp hv with rfl | hv
        · exact absurd h hy
        · exact ⟨v, hv, h⟩
      obtain ⟨pre, v, post, rfl, h1, h2⟩ := ih this
      refine ⟨y :: pre, v, post, rfl, ?_, h2⟩
      intro w hw
      rcases List.mem_cons.mp hw with rfl | hw
      · exact hy
      · exact h1 w hw

/-- A list matched against a copy of it is never found to differ. -/
theorem greedy_copy {t : Nat → Nat → Option Bool} {mem : V → List V → Bool} {R : Nat → Nat → Prop} (huniq : ∀ p q q', R p q → R p q' → q = q')
    (hR : ∀ p q, R p q → t p q ≠ some false) {l' : List V} : ∀ (xs zs ys : List V), MappedL R xs zs → (∀ y, zs.count y ≤ ys.count y) → (∀ y ∈ ys, y ∈ l') →
      (∀ p q, .ref p ∈ xs → .ref q ∈ l' → ¬ R p q → t p q ≠ some true) →
      (∀ x y, x ∈ xs → (∀ q, x ≠ .ref q) → Mapped R x y → y ∈ l' → ∀ ys, y ∈ ys → mem x ys = true) → greedy t mem xs ys = true := by
  intro xs
  induction xs with
  | nil => intro zs ys _ _ _ _ _; simp [greedy]
  | cons x xs ih =>
    intro zs ys hm hcount hsub ht hmem
    cases hm with
    | @cons _ z _ zs h hs =>
      have hz : z ∈ ys := by
        have := hcount z
        rw [List.count_cons_self] at this
        exact List.count_pos_iff.mp (by omega)
      have hcount' : ∀ y, zs.count y ≤ ys.count y := by
        intro y
        have := hcount y
        rw [List.count_cons] at this
        omega
      have ht' : ∀ p q, .ref p ∈ xs → .ref q ∈ l' → ¬ R p q → t p q ≠ some true := fun p q hp => ht p q (List.mem_cons_of_mem _ hp)
      have hmem' : ∀ x y, x ∈ xs → (∀ q, x ≠ .ref q) → Mapped R x y → y ∈ l' → ∀ ys, y ∈ ys → mem x ys = true := fun x y hx => hmem x y (List.mem_cons_of_mem _ hx)
      by_cases href : ∃ p, x = .ref p
      · obtain ⟨p, rfl⟩ := href
        cases h with
        | num hv => simp [num] at hv
        | @ref _ q h =>
          by_cases hex : ∃ v ∈ ys, Yes t (.ref p) v
          · obtain ⟨pre, v, post, rfl, h1, h2⟩ := first_yes hex
            obtain ⟨p', q', hp', rfl, hpq⟩ := h2
            cases hp'
            have hR' : R p q' := Classical.byContradiction (fun hn => ht p q' List.mem_cons_self (hsub _ (by simp)) hn hpq)
            obtain rfl := huniq p q q' h hR'
            simp only [greedy]
            rw [pureCand_first hpq _ _ 0 _ h1]
            dsimp only
            rw [Nat.zero_add, erase_mid]
            refine ih zs _ hs ?_ (fun y hy => hsub y (by
              simp only [List.mem_append, List.mem_cons] at hy ⊢
              exact hy.imp id Or.inr)) ht' hmem'
            intro y
            have := hcount y
            rw [List.count_append, List.count_cons, List.count_cons] at this
            rw [List.count_append]
            omega
          · have hno : ∀ w ∈ ys, ¬ Yes t (.ref p) w := fun w hw hy => hex ⟨w, hw, hy⟩
            have hnone : t p q = none := by
              rcases hpq : t p q with _ | _ | _
              · rfl
              · exact absurd hpq (hR p q h)
              · exact absurd ⟨p, q, rfl, rfl, hpq⟩ (hno _ hz)
            obtain ⟨j, hj⟩ := pureCand_none ys 0 (some false) hno (Or.inr ⟨rfl, q, hz, hnone⟩)
            simp only [greedy, hj]
            exact ih zs ys hs hcount' hsub ht' hmem'
      · have hx : ∀ q, x ≠ .ref q := fun q hq => href ⟨q, hq⟩
        have hg : greedy t mem (x :: xs) ys = (mem x ys && greedy t mem xs ys) := by
          cases x <;> first | rfl | exact absurd rfl (hx _)
        rw [hg, hmem x z List.mem_cons_self hx h (hsub z hz) ys hz, Bool.true_and]
        exact ih zs ys hs hcount' hsub ht' hmem'

/-! ## The theorem -/

theorem sameUids_iff {a b : List (String × String)} (ha : Dict.WF a) (hb : Dict.WF b) :
    sameUids a b = true ↔ ∀ s, Dict.get? a s = Dict.get? b s := by
  simp only [sameUids, Bool.and_eq_true, List.all_eq_true, decide_eq_true_eq]
  have count : ∀ {a b : List (String × String)}, Dict.WF a → (∀ s, s ∈ Dict.keys a → s ∈ Dict.keys b) → a.length ≤ b.length := by
    intro a b ha h
    have := List.Nodup.length_le_of_subset (l₁ := Dict.keys a) (l₂ := Dict.keys b) ha h
    simpa [Dict.keys] using this
  constructor
  · rintro ⟨hlen, h⟩ s
    cases hs : Dict.get? a s with
    | some i => exact (h _ (Dict.mem_of_get? hs)).symm
    | none =>
      cases hb' : Dict.get? b s with
      | none => rfl
      | some j =>
        have hmem : s ∈ Dict.keys b := Dict.mem_keys.mpr ⟨j, Dict.mem_of_get? hb'⟩
        have h1 := List.Nodup.length_le_of_subset (l₁ := Dict.keys a) (l₂ := (Dict.keys b).erase s) ha (by
          intro x hx
          obtain ⟨i, hi⟩ := Dict.mem_keys.mp hx
          have hne : x ≠ s := by
            rintro rfl
            exact absurd hx (Dict.get?_eq_none_iff.mp hs)
          rw [List.mem_erase_of_ne hne]
          exact Dict.mem_keys.mpr ⟨i, Dict.mem_of_get? (h _ hi)⟩)
        rw [List.length_erase_of_mem hmem] at h1
        have hpos := List.length_pos_of_mem hmem
        simp only [Dict.keys, List.length_map] at h1 hpos
        omega
  · intro h
    have hk : ∀ s, s ∈ Dict.keys a ↔ s ∈ Dict.keys b := by
      intro s
      rw [← Decidable.not_iff_not, ← Dict.get?_eq_none_iff, ← Dict.get?_eq_none_iff, h s]
    refine ⟨Nat.le_antisymm (count ha (fun s => (hk s).mp)) (count hb (fun s => (hk s).mpr)), ?_⟩
    intro e he
    rw [← h]
    exact Dict.get?_of_mem ha he

theorem sameKeys_iff {a b : List (String × V)} : sameKeys a b = true ↔ ∀ k, k ∈ Dict.keys a ↔ k ∈ Dict.keys b := by
  simp only [sameKeys, Bool.and_eq_true, List.all_eq_true, decide_eq_true_eq]
  constructor
  · rintro ⟨h1, h2⟩ k
    constructor
    · intro h; obtain ⟨v, hv⟩ := Dict.mem_keys.mp h; exact h1 _ hv
    · intro h; obtain ⟨v, hv⟩ := Dict.mem_keys.mp h; exact h2 _ hv
  · intro h
    exact ⟨fun e he => (h e.1).mp (Dict.mem_keys.mpr ⟨e.2, he⟩), fun e he => (h e.1).mpr (Dict.mem_keys.mpr ⟨e.2, he⟩)⟩

/-- what the cache never says -/
def CopyInv (U : Nat → List (String × String)) (D : Nat → List (String × V)) (R : Nat → Nat → Prop) (c : Cache) : Prop :=
  (∀ x y, R x y → Dict.get? c (key x y) ≠ some (some false)) ∧ ∀ x y, Differ U D x y → Dict.get? c (key x y) ≠ some (some true)

theorem cachedEquals_copy {U : Nat → List (String × String)} {D : Nat → List (String × V)} {R : Nat → Nat → Prop} (hP : Proper U D) (h : Copies U D R)
    {ent : Nat → Nat → Plain} (hent : ∀ p q, R p q → Sure (ent p q)) (hent' : ∀ p q, R p q → Sure (ent q p)) :
    ∀ n, RecOk (CopyInv U D R) (cachedEquals U D (eqV U ent) n) (fun x y => R x y ∨ Differ U D x y) := by
  intro n
  induction n with
  | zero => intro c a b _ _ r c' e; cases e
  | succ n ih =>
    intro c a b hc hab
    simp only [cachedEquals, body]
    split
    · rename_i r hr
      exact Post.ok ⟨hc, Ext.refl c, hr⟩
    · rename_i hnone
      have hget : ∀ (c : Cache) (r : Option Bool), Dict.get? (Dict.set c (key a b) r) (key a b) = some r := by
        intro c r; rw [Dict.get?_set, if_pos rfl]
      have hset : ∀ (c : Cache) (r : Option Bool), CopyInv U D R c → (R a b → r ≠ some false) → (Differ U D a b → r = some false ∨ r = none) →
          CopyInv U D R (Dict.set c (key a b) r) := by
        intro c r hc hr hd
        refine ⟨?_, ?_⟩
        · intro x y hxy
          rw [Dict.get?_set]
          split
          · rename_i he
            intro e
            simp only [Option.some.injEq] at e
            rcases hab with hab | hab
            · exact hr hab e
            · rcases key_eq he with ⟨rfl, rfl⟩ | ⟨rfl, rfl⟩
              · exact h.not_differ hxy hab
              · exact h.not_differ hxy hab.symm
          · exact hc.1 x y hxy
        · intro x y hxy
          rw [Dict.get?_set]
          split
          · rename_i he
            intro e
            simp only [Option.some.injEq] at e
            have : Differ U D a b := by
              rcases key_eq he with ⟨rfl, rfl⟩ | ⟨rfl, rfl⟩
              · exact hxy
              · exact hxy.symm
            rcases hd this with hd | hd <;> rw [hd] at e <;> cases e
          · exact hc.2 x y hxy
      have hc1 := hset c none hc (by simp) (by simp)
      rcases hab with hR | hD
      · have h1 : sameKeys (D a) (D b) = true := sameKeys_iff.mpr (h.keys a b hR)
        have h2 : sameUids (U a) (U b) = true := (sameUids_iff (hP.uids a) (hP.uids b)).mpr (h.uids a b hR)
        rw [h1, h2]
        simp only [Bool.not_true, Bool.false_eq_true, if_false]
        refine Post.next (compareFields_post (I := CopyInv U D R) (D a) _ hc1 ?_) ?_
        · intro k v w hv hw c hc b' c' e
          have hw' := Dict.mem_of_get? hw
          have hvc := h.vals a b hR k v w hv hw'
          have hin : ∀ x y, Inside v w x y → R x y ∨ Differ U D x y := by
            rintro x y (⟨rfl, rfl⟩ | ⟨l, l', hl, hl', hx, hy⟩)
            · cases hvc with
              | ref h => exact Or.inl h
              | list hv => cases hv
              | plain _ _ h =>
                cases h with
                | num hv => simp [num] at hv
                | ref h => exact Or.inl h
            · exact (Classical.em (R x y)).imp id (h.apart a b hR k v w l l' x y hv hw' hl hl' hx hy)
          obtain ⟨g1, g2, g3, g4, g5, g6⟩ := compareValue_post ih hc hin b' c' e
          refine ⟨g1, g2, ?_⟩
          have href : ∀ p q, v = .ref p → w = .ref q → R p q → b' = true := by
            intro p q hp hq hpq
            obtain ⟨r, hr, rfl⟩ := g3 p q hp hq
            rw [decide_eq_true_eq]
            rintro rfl
            exact g1.1 p q hpq hr
          cases hvc with
          | ref hpq => exact href _ _ rfl rfl hpq
          | @list _ _ l l' l'' hl hl' hm hp =>
            have hlen : l.length = l'.length := by rw [hm.length, hp.length_eq]
            rw [g4 l l' hl hl' hlen]
            refine greedy_copy (R := R) (l' := l') h.unique ?_ l l'' l' hm (fun y => Nat.le_of_eq (hp.count_eq y)) (fun _ h => h) ?_ ?_
            · intro p q hpq
              unfold tableOf
              cases hx : Dict.get? c' (key p q) with
              | none => simp
              | some r =>
                intro e
                simp only [Option.getD_some] at e
                exact g1.1 p q hpq (by rw [hx, e])
            · intro p q hp' hq' hn
              have hd := h.apart a b hR k v w l l' p q hv hw' hl hl' hp' hq' hn
              unfold tableOf
              cases hx : Dict.get? c' (key p q) with
              | none => simp
              | some r =>
                intro e
                simp only [Option.getD_some] at e
                exact g1.2 p q hd (by rw [hx, e])
            · intro x y hx hn hxy hyl ys hy
              exact memOf_sure (eqV_mapped (R := fun p q => R q p) (fun p q hpq => hent' q p hpq) y x hxy.symm
                ((hP.shape b k w hw').sub (mem_subs_of_iter hl' hyl (self_mem_subs _)))) hy
          | plain hiv hiw hm =>
            by_cases hr : ∃ p, v = .ref p
            · obtain ⟨p, rfl⟩ := hr
              cases hm with
              | num hv => simp [num] at hv
              | ref hpq => exact href _ _ rfl rfl hpq
            · have := g6 (Or.inl hiv) (fun hx => absurd hx hr)
              exact eqV_mapped hent v w hm (hP.shape a k v hv) b' this
        · rintro b' c2 ⟨h1, h2, rfl⟩
          exact Post.ok ⟨hset c2 _ h1 (by simp) (fun hd => absurd hd (h.not_differ hR)), ext_set hnone h2, hget _ _⟩
      · have hn : ¬ R a b := fun hR => h.not_differ hR hD
        have fin : Post (some (.ok (some false, Dict.set (Dict.set c (key a b) none) (key a b) (some false))))
            (fun r c' => CopyInv U D R c' ∧ Ext c c' ∧ Dict.get? c' (key a b) = some r) :=
          Post.ok ⟨hset _ _ hc1 (fun hR => absurd hR hn) (fun _ => Or.inl rfl), ext_set hnone (Ext.refl _), hget _ _⟩
        split
        · exact fin
        · rename_i hk
          split
          · exact fin
          · rename_i hu
            simp only [Bool.not_eq_true', Bool.not_eq_false] at hk hu
            rcases hD with ⟨s, hs⟩ | ⟨k, hkk⟩
            · exact absurd ((sameUids_iff (hP.uids a) (hP.uids b)).mp hu s) hs
            · exact absurd (sameKeys_iff.mp hk k) hkk

theorem equals_copy {U : Nat → List (String × String)} {D : Nat → List (String × V)} (hP : Proper U D) (n : Nat) :
    ∀ (k : Nat) {R : Nat → Nat → Prop} (h : Copies U D R) {a b : Nat} (hR : R a b) {r : Bool} (hr : equals U D n k a b = some (.ok r)), r = true := by
  intro k
  induction k with
  | zero => intro R h a b hR r hr; cases hr
  | succ k ih =>
    intro R h a b hR r hr
    simp only [equals, entityEq] at hr
    split at hr
    · cases hr
    · cases hr
    · rename_i r' c hc
      cases hr
      cases n with
      | zero => cases hc
      | succ n =>
        have hfin := hc
        obtain ⟨h1, _, h2⟩ := cachedEquals_copy hP h (ent := equals U D (n + 1) k) (fun p q hpq b hb => ih h hpq hb)
          (fun p q hpq b hb => ih h.symm hpq hb) (n + 1) [] a b
          ⟨by intro x y _; simp [Dict.get?], by intro x y _; simp [Dict.get?]⟩ (Or.inl hR) r' c hc
        rcases r' with _ | _ | _
        · simp only [cachedEquals, body, Dict.get?] at hfin
          split at hfin
          · cases hfin
          · split at hfin
            · cases hfin
            · unfold Run.next at hfin
              split at hfin <;> cases hfin
        · exact absurd h2 (h1.1 a b hR)
        · rfl

/-- C34. Two object graphs that are the same up to the identity of the objects and the order within lists compare equal.
Missing for the full statement: objects without uids of the same class in the same list (`Copies.apart`); then the code may not find the
matching, see the counterexample. -/
theorem C34_isomorphic_partial {U : Nat → List (String × String)} {D : Nat → List (String × V)} (hP : Proper U D) {R : Nat → Nat → Prop}
    (h : Copies U D R) {N : Nat} {rank : Nat → Nat} (hR : Ranked D N rank) {kt : String → Bool} (ht : Typed D kt) (n : Nat) (hn : N * N < n)
    (k a b : Nat) (ha : a < N) (hb : b < N) (hra : rank a < k) (hrb : rank b < k) (hab : R a b) :
    equals U D n k a b = some (.ok true) ∧ equals U D n k b a = some (.ok true) := by
  obtain ⟨r, hr⟩ := C33_answers_partial (U := U) hR ht n hn k a b ha hb hra hrb
  obtain ⟨r', hr'⟩ := C33_answers_partial (U := U) hR ht n hn k b a hb ha hrb hra
  rw [hr, hr', equals_copy hP n k h hab hr, equals_copy hP n k h.symm hab hr']
  exact ⟨rfl, rfl⟩

end Verif.Equal
