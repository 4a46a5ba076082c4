import Verif.Model.Repr
import Verif.Props.RawCopy
import Verif.Props.BackLinks
/-!
# C66: `repr`
-/

set_option linter.unusedSimpArgs false
set_option linter.unusedVariables false
set_option linter.unusedSectionVars false

namespace Verif.Repr
open Verif.Py Verif.Value Verif.Schema Verif.Json Verif.Substitute

/-! ## The specification -/

/-- an entity of the memory, or a link -/
def Entry (m : Mem) (w : V) : Prop := (∃ o, w = .ref o ∧ o < m.length) ∨ ∃ s i, w = .link s i

/-- a back reference: nothing, an entity or link, or a list of them -/
def BackValue (m : Mem) (w : V) : Prop := w = .none ∨ Entry m w ∨ ∃ l, w = .list l ∧ ∀ u ∈ l, Entry m u

/-- the entities nested in the value are in the memory, and their back references are entities and links -/
structure Whole (m : Mem) (v : V) : Prop where
  there : ∀ o, Nested m v o → o < m.length
  back : ∀ o x, m[o]? = some x → Nested m v o → ∀ k ∈ skip x.cls, BackValue m (backRef x k)

/-- the name of an entity -/
def IsName (m : Mem) (x : EObj) (n : V) : Prop := n = (Dict.get? (asDict m x) "name").getD (.str "<unknown name>")

/-- how an entity behind a back reference is shown: by class and name -/
inductive Mark (m : Mem) : V → V → Prop
  | entity {o x n} : m[o]? = some x → IsName m x n → Mark m (.ref o) (.tuple [.str (className x.cls), n])
  | link {s i} : Mark m (.link s i) (.tuple [.str "LinkByUID", .str "<unknown name>"])

/-- two lists of the same length, related item by item -/
inductive Each {α β : Type} (R : α → β → Prop) : List α → List β → Prop
  | nil : Each R [] []
  | cons {a b l l'} : R a b → Each R l l' → Each R (a :: l) (b :: l')

/-- how a back reference is shown -/
inductive Marks (m : Mem) : V → V → Prop
  | nothing : Marks m .none .none
  | one {w t} : Mark m w t → Marks m w t
  | many {l ts} : Each (Mark m) l ts → Marks m (.list l) (.list ts)

/-- a scalar -/
inductive Scalar : V → Prop
  | none : Scalar .none
  | bool {b} : Scalar (.bool b)
  | int {i} : Scalar (.int i)
  | float {q} : Scalar (.float q)
  | str {s} : Scalar (.str s)

mutual
/-- how a value is shown -/
inductive Shows (m : Mem) : V → V → Prop
  | scalar {v} : Scalar v → Shows m v v
  | list {l ts} : ShowsAll m l ts → Shows m (.list l) (.list ts)
  | tuple {l ts} : ShowsAll m l ts → Shows m (.tuple l) (.tuple ts)
  | dict {ks vs ks' vs'} : ShowsAll m ks ks' → ShowsAll m vs vs' → Shows m (.dict ks vs) (.dict ks' vs')
  | link {s i} : Shows m (.link s i) (mkDict [("scope", .str s), ("id", .str i)])
  | object {ty ns vs ts} : ShowsAll m vs ts → Shows m (.obj ty ns vs) (mkDict (ns.zip ts ++ [("type", .str ty)]))
  | entity {o x ts bs} : m[o]? = some x → ShowsAll m ((asDict m x).map Prod.snd) ts → Each (fun k b => Marks m ((Dict.get? x.fields k).getD .none) b) (skip x.cls) bs →
      Shows m (.ref o) (mkDict (((asDict m x).map Prod.fst).zip ts ++ ((skip x.cls).map Equal.lstrip).zip bs))
inductive ShowsAll (m : Mem) : List V → List V → Prop
  | nil : ShowsAll m [] []
  | cons {v t l ts} : Shows m v t → ShowsAll m l ts → ShowsAll m (v :: l) (t :: ts)
end

/-! ## Names -/

theorem nameRepr_entry {m : Mem} {w : V} (h : Entry m w) : ∃ t, nameRepr m w = .ok t := by
  rcases h with ⟨o, rfl, ho⟩ | ⟨s, i, rfl⟩
  · exact ⟨_, by simp only [nameRepr, List.getElem?_eq_getElem ho]; rfl⟩
  · exact ⟨_, rfl⟩

theorem nameReprs_total {m : Mem} {l : List V} (h : ∀ w ∈ l, ∃ t, nameRepr m w = .ok t) : ∃ ts, nameReprs m l = .ok ts := by
  induction l with
  | nil => exact ⟨_, rfl⟩
  | cons w l ih =>
    obtain ⟨t, e⟩ := h w (by simp)
    obtain ⟨ts, e'⟩ := ih (fun w hw => h w (by simp [hw]))
    exact ⟨_, by simp only [nameReprs, e, e']; rfl⟩

theorem nameRepr_back {m : Mem} {w : V} (h : BackValue m w) : ∃ t, nameRepr m w = .ok t := by
  rcases h with rfl | h | ⟨l, rfl, h⟩
  · exact ⟨_, rfl⟩
  · exact nameRepr_entry h
  · obtain ⟨ts, e⟩ := nameReprs_total (fun w hw => nameRepr_entry (h w hw))
    exact ⟨_, by simp only [nameRepr, e]; rfl⟩

/-! ## When it returns -/

section
variable {E : Nat → Except PyErr V}
mutual
theorem rep_total (v : V) (h : ∀ q, V.ref q ∈ v.subs → ∃ t, E q = .ok t) : ∃ t, rep E v = .ok t := by
  cases v with
  | list l =>
    obtain ⟨ts, e⟩ := reps_total l (fun q hq => h q (by simp [V.subs, hq]))
    exact ⟨_, by simp only [rep, e]; rfl⟩
  | tuple l =>
    obtain ⟨ts, e⟩ := reps_total l (fun q hq => h q (by simp [V.subs, hq]))
    exact ⟨_, by simp only [rep, e]; rfl⟩
  | dict ks vs =>
    obtain ⟨ts, e⟩ := reps_total ks (fun q hq => h q (by simp [V.subs, hq]))
    obtain ⟨ts', e'⟩ := reps_total vs (fun q hq => h q (by simp [V.subs, hq]))
    exact ⟨_, by simp only [rep, e, e']; rfl⟩
  | obj t ns vs =>
    obtain ⟨ts, e⟩ := reps_total vs (fun q hq => h q (by simp [V.subs, hq]))
    exact ⟨_, by simp only [rep, e]; rfl⟩
  | ref o => simp only [rep]; exact h o (self_mem_subs _)
  | _ => exact ⟨_, rfl⟩
termination_by structural v
theorem reps_total (l : List V) (h : ∀ q, V.ref q ∈ subss l → ∃ t, E q = .ok t) : ∃ ts, reps E l = .ok ts := by
  cases l with
  | nil => exact ⟨_, rfl⟩
  | cons v vs =>
    obtain ⟨t, e⟩ := rep_total v (fun q hq => h q (by simp [subss, hq]))
    obtain ⟨ts, e'⟩ := reps_total vs (fun q hq => h q (by simp [subss, hq]))
    exact ⟨_, by simp only [reps, e, e']; rfl⟩
termination_by structural l
end

mutual
theorem rep_refs (v : V) (t : V) (h : rep E v = .ok t) : ∀ q, V.ref q ∈ v.subs → ∃ t, E q = .ok t := by
  intro q hq
  cases v with
  | list l =>
    simp only [rep] at h
    split at h
    · cases h
    · rename_i ts hts
      simp only [V.subs, List.mem_cons, reduceCtorEq, false_or] at hq
      exact reps_refs l ts hts q hq
  | tuple l =>
    simp only [rep] at h
    split at h
    · cases h
    · rename_i ts hts
      simp only [V.subs, List.mem_cons, reduceCtorEq, false_or] at hq
      exact reps_refs l ts hts q hq
  | dict ks vs =>
    simp only [rep] at h
    split at h
    · cases h
    · rename_i ts hts
      split at h
      · cases h
      · rename_i ts' hts'
        simp only [V.subs, List.mem_cons, reduceCtorEq, false_or, List.mem_append] at hq
        rcases hq with hq | hq
        · exact reps_refs ks ts hts q hq
        · exact reps_refs vs ts' hts' q hq
  | obj t ns vs =>
    simp only [rep] at h
    split at h
    · cases h
    · rename_i ts hts
      simp only [V.subs, List.mem_cons, reduceCtorEq, false_or] at hq
      exact reps_refs vs ts hts q hq
  | ref o =>
    simp only [V.subs, List.mem_cons, V.ref.injEq, List.not_mem_nil, or_false] at hq
    subst hq
    exact ⟨t, by simpa [rep] using h⟩
  | _ => simp [V.subs] at hq
termination_by structural v
theorem reps_refs (l : List V) (ts : List V) (h : reps E l = .ok ts) : ∀ q, V.ref q ∈ subss l → ∃ t, E q = .ok t := by
  intro q hq
  cases l with
  | nil => simp [subss] at hq
  | cons v vs =>
    simp only [reps] at h
    split at h
    · cases h
    · rename_i w hw'
      split at h
      · cases h
      · rename_i ws hws
        simp only [subss, List.mem_append] at hq
        rcases hq with hq | hq
        · exact rep_refs v w hw' q hq
        · exact reps_refs vs ws hws q hq
termination_by structural l
end
end

theorem holds_iff {m : Mem} {o : Nat} {x : EObj} (hx : m[o]? = some x) (q : Nat) : Holds m o q ↔ V.ref q ∈ subss ((asDict m x).map Prod.snd) := by
  constructor
  · rintro ⟨x', hx', e, he, hq⟩
    rw [hx] at hx'
    cases hx'
    exact mem_subss.2 ⟨e.2, List.mem_map.2 ⟨e, he, rfl⟩, hq⟩
  · intro h
    obtain ⟨w, hw, hq⟩ := mem_subss.1 h
    obtain ⟨e, he, rfl⟩ := List.mem_map.1 hw
    exact ⟨x, hx, e, he, hq⟩

theorem backs_ok {m : Mem} {v : V} (h : Whole m v) {o : Nat} {x : EObj} (hx : m[o]? = some x) (ho : Nested m v o) :
    ∃ bs, nameReprs m ((skip x.cls).map (backRef x)) = .ok bs := by
  apply nameReprs_total
  intro w hw
  obtain ⟨k, hk, rfl⟩ := List.mem_map.1 hw
  exact nameRepr_back (h.back o x hx ho k hk)

theorem repRef_succ {m : Mem} {v : V} (h : Whole m v) {o : Nat} {x : EObj} (hx : m[o]? = some x) (ho : Nested m v o) (k : Nat) :
    (∃ t, repRef m (k + 1) o = .ok t) ↔ ∀ q, Holds m o q → ∃ t, repRef m k q = .ok t := by
  obtain ⟨bs, hb⟩ := backs_ok h hx ho
  constructor
  · rintro ⟨t, ht⟩ q hq
    simp only [repRef, hx] at ht
    split at ht
    · cases ht
    · rename_i ts hts
      exact reps_refs _ ts hts q ((holds_iff hx q).1 hq)
  · intro hh
    obtain ⟨ts, e⟩ := reps_total (E := repRef m k) _ (fun q hq => hh q ((holds_iff hx q).2 hq))
    exact ⟨_, by simp only [repRef, hx, e, hb]; rfl⟩

theorem repRef_ok {m : Mem} {v : V} (h : Whole m v) (hc : ∀ o, Nested m v o → ¬ Inside m o o) (k o : Nat) (ho : Nested m v o)
    (hk : size m o < k) : ∃ t, repRef m k o = .ok t := by
  induction k generalizing o with
  | zero => omega
  | succ k ih =>
    have hx := List.getElem?_eq_getElem (h.there o ho)
    rw [repRef_succ h hx ho]
    intro q hq
    have hn := ho.step hq
    have := size_lt hq (h.there q hn) (hc q hn)
    exact ih q hn (by omega)

theorem repRef_acyclic {m : Mem} {v : V} (h : Whole m v) (k o : Nat) (ho : Nested m v o) (hc : Inside m o o) (t : V) : repRef m k o ≠ .ok t := by
  induction k generalizing o t with
  | zero => simp [repRef]
  | succ k ih =>
    intro e
    have hx := List.getElem?_eq_getElem (h.there o ho)
    obtain ⟨q, hq, hr⟩ := hc.head
    obtain ⟨t', ht'⟩ := (repRef_succ h hx ho k).1 ⟨t, e⟩ q hq
    rcases hr with rfl | hr
    · exact ih _ ho hc t' ht'
    · exact ih q (ho.step hq) (hr.trans (.child hq)) t' ht'

theorem repRef_nested {m : Mem} {v : V} (h : Whole m v) {k q : Nat} (hq : Nested m v q) (hk : ∃ t, repRef m k q = .ok t) {o : Nat}
    (ho : Inside m q o) : ∃ k t, repRef m k o = .ok t := by
  induction ho generalizing k with
  | child hh =>
    cases k with
    | zero => simp [repRef] at hk
    | succ k =>
      obtain ⟨t, ht⟩ := (repRef_succ h (List.getElem?_eq_getElem (h.there _ hq)) hq k).1 hk _ hh
      exact ⟨k, t, ht⟩
  | deeper hh _ ih =>
    cases k with
    | zero => simp [repRef] at hk
    | succ k => exact ih (hq.step hh) ((repRef_succ h (List.getElem?_eq_getElem (h.there _ hq)) hq k).1 hk _ hh)

/-- C66: `repr` returns exactly if no entity is nested in itself, whatever cycles there are through back references -/
theorem C66_returns {m : Mem} {v : V} (h : Whole m v) : (∃ t, reprV m v = .ok t) ↔ ∀ o, Nested m v o → ¬ Inside m o o := by
  constructor
  · rintro ⟨t, ht⟩ o ho hc
    have hr := rep_refs v t ht
    have : ∃ k t, repRef m k o = .ok t := by
      rcases ho with ho | ⟨q, hq, hi⟩
      · obtain ⟨t, ht⟩ := hr o ho
        exact ⟨_, t, ht⟩
      · exact repRef_nested h (.inl hq) (hr q hq) hi
    obtain ⟨k, t', e⟩ := this
    exact repRef_acyclic h k o ho hc t' e
  · intro hc
    refine rep_total v (fun q hq => repRef_ok h hc _ q (.inl hq) ?_)
    have := size_le m q
    omega

/-! ## What it shows -/

section
variable {E E' : Nat → Except PyErr V}
mutual
theorem rep_congr (v : V) (h : ∀ q, V.ref q ∈ v.subs → E q = E' q) : rep E v = rep E' v := by
  cases v with
  | list l => simp only [rep]; rw [reps_congr l (fun q hq => h q (by simp [V.subs, hq]))]
  | tuple l => simp only [rep]; rw [reps_congr l (fun q hq => h q (by simp [V.subs, hq]))]
  | dict ks vs =>
    simp only [rep]
    rw [reps_congr ks (fun q hq => h q (by simp [V.subs, hq])), reps_congr vs (fun q hq => h q (by simp [V.subs, hq]))]
  | obj t ns vs => simp only [rep]; rw [reps_congr vs (fun q hq => h q (by simp [V.subs, hq]))]
  | ref o => simp only [rep]; exact h o (self_mem_subs _)
  | _ => rfl
termination_by structural v
theorem reps_congr (l : List V) (h : ∀ q, V.ref q ∈ subss l → E q = E' q) : reps E l = reps E' l := by
  cases l with
  | nil => rfl
  | cons v vs =>
    simp only [reps]
    rw [rep_congr v (fun q hq => h q (by simp [subss, hq])), reps_congr vs (fun q hq => h q (by simp [subss, hq]))]
termination_by structural l
end
end

theorem mark_spec {m : Mem} {w t : V} (h : Entry m w) (e : nameRepr m w = .ok t) : Mark m w t := by
  rcases h with ⟨o, rfl, ho⟩ | ⟨s, i, rfl⟩
  · simp only [nameRepr, List.getElem?_eq_getElem ho, Except.ok.injEq] at e
    subst e
    exact .entity (List.getElem?_eq_getElem ho) rfl
  · simp only [nameRepr, Except.ok.injEq] at e
    subst e
    exact .link

theorem nameReprs_spec {m : Mem} {l ts : List V} (h : nameReprs m l = .ok ts) : Each (fun w t => nameRepr m w = .ok t) l ts := by
  induction l generalizing ts with
  | nil => simp only [nameReprs, Except.ok.injEq] at h; subst h; exact .nil
  | cons v l ih =>
    simp only [nameReprs] at h
    split at h
    · cases h
    · rename_i w hw
      split at h
      · cases h
      · rename_i ws hws
        cases h
        exact .cons hw (ih hws)

theorem forall₂_imp {α β : Type} {R S : α → β → Prop} {l : List α} {l' : List β} (h : Each R l l') (hi : ∀ a ∈ l, ∀ b, R a b → S a b) : Each S l l' := by
  induction h with
  | nil => exact .nil
  | cons h _ ih => exact .cons (hi _ (by simp) _ h) (ih (fun a ha => hi a (by simp [ha])))

theorem marks_spec {m : Mem} {w t : V} (h : BackValue m w) (e : nameRepr m w = .ok t) : Marks m w t := by
  rcases h with rfl | h | ⟨l, rfl, h⟩
  · simp only [nameRepr, Except.ok.injEq] at e
    subst e
    exact .nothing
  · exact .one (mark_spec h e)
  · simp only [nameRepr] at e
    split at e
    · cases e
    · rename_i ts hts
      cases e
      exact .many (forall₂_imp (nameReprs_spec hts) (fun a ha b hb => mark_spec (h a ha) hb))

theorem forall₂_map {α β γ : Type} {R : β → γ → Prop} {f : α → β} {l : List α} {l' : List γ} (h : Each R (l.map f) l') : Each (fun a c => R (f a) c) l l' := by
  induction l generalizing l' with
  | nil => cases h; exact .nil
  | cons a l ih => cases h with | cons h h' => exact .cons h (ih h')

mutual
theorem rep_shows {m : Mem} {E : Nat → Except PyErr V} (v t : V) (hE : ∀ q, V.ref q ∈ v.subs → ∀ t, E q = .ok t → Shows m (.ref q) t) (h : rep E v = .ok t) : Shows m v t := by
  cases v with
  | list l =>
    simp only [rep] at h
    split at h
    · cases h
    · rename_i ts hts
      cases h
      exact .list (reps_shows l ts (fun q hq => hE q (by simp [V.subs, hq])) hts)
  | tuple l =>
    simp only [rep] at h
    split at h
    · cases h
    · rename_i ts hts
      cases h
      exact .tuple (reps_shows l ts (fun q hq => hE q (by simp [V.subs, hq])) hts)
  | dict ks vs =>
    simp only [rep] at h
    split at h
    · cases h
    · rename_i ts hts
      split at h
      · cases h
      · rename_i ts' hts'
        cases h
        exact .dict (reps_shows ks ts (fun q hq => hE q (by simp [V.subs, hq])) hts) (reps_shows vs ts' (fun q hq => hE q (by simp [V.subs, hq])) hts')
  | obj ty ns vs =>
    simp only [rep] at h
    split at h
    · cases h
    · rename_i ts hts
      cases h
      exact .object (reps_shows vs ts (fun q hq => hE q (by simp [V.subs, hq])) hts)
  | ref o => exact hE o (self_mem_subs _) t h
  | link s i => simp only [rep, Except.ok.injEq] at h; subst h; exact .link
  | none => simp only [rep, Except.ok.injEq] at h; subst h; exact .scalar .none
  | bool b => simp only [rep, Except.ok.injEq] at h; subst h; exact .scalar .bool
  | int b => simp only [rep, Except.ok.injEq] at h; subst h; exact .scalar .int
  | float b => simp only [rep, Except.ok.injEq] at h; subst h; exact .scalar .float
  | str b => simp only [rep, Except.ok.injEq] at h; subst h; exact .scalar .str
termination_by structural v
theorem reps_shows {m : Mem} {E : Nat → Except PyErr V} (l ts : List V) (hE : ∀ q, V.ref q ∈ subss l → ∀ t, E q = .ok t → Shows m (.ref q) t) (h : reps E l = .ok ts) :
    ShowsAll m l ts := by
  cases l with
  | nil => simp only [reps, Except.ok.injEq] at h; subst h; exact .nil
  | cons v l =>
    simp only [reps] at h
    split at h
    · cases h
    · rename_i w hw
      split at h
      · cases h
      · rename_i ws hws
        cases h
        exact .cons (rep_shows v w (fun q hq => hE q (by simp [subss, hq])) hw) (reps_shows l ws (fun q hq => hE q (by simp [subss, hq])) hws)
termination_by structural l
end

theorem repRef_shows {m : Mem} {v : V} (h : Whole m v) (k o : Nat) (ho : Nested m v o) (t : V) (e : repRef m k o = .ok t) : Shows m (.ref o) t := by
  induction k generalizing o t with
  | zero => simp [repRef] at e
  | succ k ih =>
    have hx := List.getElem?_eq_getElem (h.there o ho)
    simp only [repRef, hx] at e
    split at e
    · cases e
    · rename_i vs hvs
      split at e
      · cases e
      · rename_i bs hbs
        cases e
        refine .entity hx (reps_shows _ vs (fun q hq => ih q (ho.step ((holds_iff hx q).2 hq))) hvs) ?_
        exact forall₂_imp (forall₂_map (nameReprs_spec hbs)) (fun k hk b hb => marks_spec (h.back o _ hx ho k hk) hb)

/-- C66: what is shown: each attribute of an entity under its name, as it is shown by itself, and each back reference by class and name -/
theorem C66_shows {m : Mem} {v : V} (h : Whole m v) {t : V} (e : reprV m v = .ok t) : Shows m v t :=
  rep_shows v t (fun q hq t e => repRef_shows h _ q (.inl hq) t e) e

/-! ## What it depends on -/

/-- of the entity `p` the two memories show the same class and the same name -/
def SameTag (m m' : Mem) (p : Nat) : Prop := ∃ y y', m[p]? = some y ∧ m'[p]? = some y' ∧ y.cls = y'.cls ∧ nameOf m y = nameOf m' y'

/-- the entity `o` has the same attributes and the same back references, and those have the same classes and names -/
def SameShown (m m' : Mem) (o : Nat) : Prop := ∃ x x', m[o]? = some x ∧ m'[o]? = some x' ∧ x.cls = x'.cls ∧ asDict m x = asDict m' x' ∧
  ∀ k ∈ skip x.cls, backRef x k = backRef x' k ∧ ∀ p, V.ref p ∈ (backRef x k).subs → SameTag m m' p

mutual
theorem nameRepr_congr {m m' : Mem} (v : V) (h : ∀ p, V.ref p ∈ v.subs → SameTag m m' p) : nameRepr m v = nameRepr m' v := by
  cases v with
  | list l => simp only [nameRepr]; rw [nameReprs_congr l (fun q hq => h q (by simp [V.subs, hq]))]
  | tuple l => simp only [nameRepr]; rw [nameReprs_congr l (fun q hq => h q (by simp [V.subs, hq]))]
  | dict ks vs => simp only [nameRepr]; rw [nameReprs_congr ks (fun q hq => h q (by simp [V.subs, hq]))]
  | ref o =>
    obtain ⟨y, y', h1, h2, h3, h4⟩ := h o (self_mem_subs _)
    simp only [nameRepr, h1, h2, h3, h4]
  | _ => rfl
termination_by structural v
theorem nameReprs_congr {m m' : Mem} (l : List V) (h : ∀ p, V.ref p ∈ subss l → SameTag m m' p) : nameReprs m l = nameReprs m' l := by
  cases l with
  | nil => rfl
  | cons v vs =>
    simp only [nameReprs]
    rw [nameRepr_congr v (fun q hq => h q (by simp [subss, hq])), nameReprs_congr vs (fun q hq => h q (by simp [subss, hq]))]
termination_by structural l
end

theorem repRef_congr {m m' : Mem} {v : V} (h : ∀ o, Nested m v o → SameShown m m' o) (k o : Nat) (ho : Nested m v o) : repRef m k o = repRef m' k o := by
  induction k generalizing o with
  | zero => rfl
  | succ k ih =>
    obtain ⟨x, x', hx, hx', hc, hd, hb⟩ := h o ho
    simp only [repRef, hx, hx']
    have h1 : reps (repRef m k) ((asDict m x).map Prod.snd) = reps (repRef m' k) ((asDict m' x').map Prod.snd) := by
      rw [← hd]
      exact reps_congr _ (fun q hq => ih q (ho.step ((holds_iff hx q).2 hq)))
    have h2 : nameReprs m ((skip x.cls).map (backRef x)) = nameReprs m' ((skip x'.cls).map (backRef x')) := by
      have : (skip x'.cls).map (backRef x') = (skip x.cls).map (backRef x) := by
        rw [← hc]
        exact List.map_congr_left (fun k hk => (hb k hk).1.symm)
      rw [this]
      apply nameReprs_congr
      intro p hp
      obtain ⟨w, hw, hp⟩ := mem_subss.1 hp
      obtain ⟨k, hk, rfl⟩ := List.mem_map.1 hw
      exact (hb k hk).2 p hp
    rw [h1, h2, hd, hc]

/-- C66: `repr` depends on the attributes of the entities nested in the value, and on nothing but class and name of those behind back references -/
theorem C66_frame {m m' : Mem} {v : V} (hl : m.length = m'.length) (h : ∀ o, Nested m v o → SameShown m m' o) : reprV m v = reprV m' v := by
  unfold reprV
  rw [hl]
  exact rep_congr v (fun q hq => repRef_congr h _ q (.inl hq))

/-! ## Entities made by constructors -/

theorem skip_own (c : ECls) : ∀ k ∈ skip c, k ∈ backNames ∧ c ≠ .ingredientRun := by cases c <;> decide +kernel

theorem built_back {env : Env} (hsane : Sane env) {m : Mem} (h : Built env m) {o : Nat} {x : EObj} (hx : m[o]? = some x) (k : String) (hk : k ∈ skip x.cls) :
    BackValue m (backRef x k) := by
  obtain ⟨vals, own, hs, _⟩ := h.wellTyped hsane o x hx
  obtain ⟨name, labels, e⟩ := Verif.Substitute.Built.backInv hsane h o x vals own hx hs
  obtain ⟨hn, hc⟩ := skip_own _ k hk
  unfold backRef
  have hb : ∀ w ∈ backers m .ref (List.range m.length) k o, Entry m w := by
    intro w hw
    unfold backers at hw
    obtain ⟨p, hp, rfl⟩ := List.mem_map.1 hw
    exact .inl ⟨p, rfl, List.mem_range.1 (List.mem_filter.1 hp).1⟩
  rw [hs.fields, get?_append, get?_zip_none _ _ _ (backNames_args x.cls k hn), e]
  unfold ownAt
  rw [if_neg hc, get?_mapFst _ (fun k => backVal k (backers m .ref (List.range m.length) k o))]
  simp only [Option.none_or, Option.or]
  split
  · simp only [Option.getD_some]
    unfold backVal
    split
    · cases hl : (backers m .ref (List.range m.length) k o).getLast? with
      | none => exact .inl rfl
      | some w => exact .inr (.inl (hb w (List.mem_of_getLast? hl)))
    · exact .inr (.inr ⟨_, rfl, hb⟩)
  · exact .inl rfl

theorem whole_built {env : Env} (hsane : Sane env) {m : Mem} (hb : Built env m) {v : V} (hv : ∀ o, V.ref o ∈ v.subs → o < m.length)
    (hf : ∀ o x, m[o]? = some x → Nested m v o → FreePlain (asDict m x) ∧ ∀ e ∈ asDict m x, FreeInside e.2) : Whole m v := by
  have hT := hb.wellTyped hsane
  have there : ∀ q o, Inside m q o → Nested m v q → o < m.length := by
    intro q o h
    induction h with
    | child h =>
      intro hq
      obtain ⟨x, hx, e, he, hp⟩ := h
      obtain ⟨y, hy, _⟩ := forward_refs hT hx (hf _ x hx hq).1 (hf _ x hx hq).2 he hp
      exact (List.getElem?_eq_some_iff.1 hy).1
    | deeper h _ ih => intro hq; exact ih (hq.step h)
  refine ⟨?_, fun o x hx _ k hk => built_back hsane hb hx k hk⟩
  rintro o (ho | ⟨q, hq, ho⟩)
  · exact hv o ho
  · exact there q o ho (.inl hq)

/-- C66: `repr` returns for everything made by constructors in which entities occur only where attributes are meant to hold them -/
theorem C66_built {env : Env} (hsane : Sane env) {m : Mem} (hb : Built env m) {v : V} (hv : ∀ o, V.ref o ∈ v.subs → o < m.length)
    (hf : ∀ o x, m[o]? = some x → Nested m v o → FreePlain (asDict m x) ∧ ∀ e ∈ asDict m x, FreeInside e.2) : ∃ t, reprV m v = .ok t ∧ Shows m v t := by
  have hw := whole_built hsane hb hv hf
  obtain ⟨t, e⟩ := (C66_returns hw).2 (C57_no_cycle (hb.wellTyped hsane) hf)
  exact ⟨t, e, C66_shows hw e⟩

/-! ## Examples -/

theorem sample_free : ∀ (o : Nat) (x : EObj), sample[o]? = some x → FreePlain (asDict sample x) ∧ ∀ e ∈ asDict sample x, FreeInside e.2 := by
  have key : sample.all (fun x => Substitute.freeOk (asDict sample x) && (asDict sample x).all (fun e => Substitute.insideOk e.2)) = true := by decide +kernel
  intro o x hx
  have := List.all_eq_true.1 key x (List.mem_of_getElem? hx)
  rw [Bool.and_eq_true] at this
  exact ⟨Substitute.freeOk_spec this.1, fun e he => Substitute.insideOk_spec (List.all_eq_true.1 this.2 e he)⟩

/-- the hypotheses of `C66_built`, `C66_returns` and `C66_shows` are met -/
example : (∀ o, V.ref o ∈ (V.ref 6).subs → o < sample.length) ∧ Whole sample (.ref 6) ∧ (∃ t, reprV sample (.ref 6) = .ok t ∧ Shows sample (.ref 6) t) := by
  have h : ∀ o, V.ref o ∈ (V.ref 6).subs → o < sample.length := by
    intro o ho
    simp [V.subs] at ho
    subst ho
    rw [sample_eq.2]
    decide
  exact ⟨h, whole_built plainEnv_sane sample_built h (fun o x hx _ => sample_free o x hx), C66_built plainEnv_sane sample_built h (fun o x hx _ => sample_free o x hx)⟩

/-- a process and its output: two entities that refer to each other -/
def pair : Mem := [{ cls := .processRun, uids := [], fields := [("name", .str "bake"), ("_ingredients", .list []), ("_output_material", .ref 1)] },
  { cls := .materialRun, uids := [], fields := [("name", .str "bread"), ("_process", .ref 0), ("_measurements", .list [])] }]

example : reprV pair (.ref 0) = .ok (mkDict [("type", .str "process_run"), ("uids", .dict [] []), ("name", .str "bake"),
    ("output_material", tag "MaterialRun" (.str "bread")), ("ingredients", .list [])]) := by decide +kernel

example : reprV pair (.ref 1) = .ok (mkDict [("type", .str "material_run"), ("uids", .dict [] []), ("name", .str "bread"),
    ("process", mkDict [("type", .str "process_run"), ("uids", .dict [] []), ("name", .str "bake"), ("output_material", tag "MaterialRun" (.str "bread")),
      ("ingredients", .list [])]), ("measurements", .list [])]) := by decide +kernel

/-- the memory with another process -/
def pair' : Mem := [{ cls := .processRun, uids := [], fields := [("name", .str "bake"), ("_ingredients", .list []), ("_output_material", .ref 1)] },
  { cls := .materialRun, uids := [("id", "7")], fields := [("name", .str "bread"), ("_process", .none), ("notes", .str "stale"), ("_measurements", .list [])] }]

/-- the hypotheses of `C66_frame` are met although the material differs: seen from the process only its class and name count -/
example : reprV pair (.ref 0) = reprV pair' (.ref 0) := by
  refine C66_frame (m := pair) (m' := pair') rfl ?_
  have hn : ∀ o p, ¬ (o = 0 ∧ Holds pair o p) := by
    rintro o p ⟨rfl, h⟩
    have := (holds_iff (m := pair) (o := 0) rfl p).1 h
    have key : (subss ((asDict pair pair[0]).map Prod.snd)).all (fun w => match w with | .ref _ => false | _ => true) = true := by decide +kernel
    have := List.all_eq_true.1 key _ this
    simp at this
  have h0 : ∀ o, Nested pair (.ref 0) o → o = 0 := by
    rintro o (h | ⟨q, hq, h⟩)
    · simpa [V.subs] using h
    · have : q = 0 := by simpa [V.subs] using hq
      subst this
      obtain ⟨p, hp, _⟩ := h.head
      exact absurd ⟨rfl, hp⟩ (hn 0 p)
  intro o ho
  rw [h0 o ho]
  refine ⟨_, _, rfl, rfl, rfl, by decide +kernel, ?_⟩
  have tag1 : SameTag pair pair' 1 := ⟨_, _, rfl, rfl, rfl, by decide +kernel⟩
  intro k hk
  simp only [skip, List.mem_cons, List.not_mem_nil, or_false] at hk
  rcases hk with rfl | rfl
  · refine ⟨by decide +kernel, fun p hp => ?_⟩
    have : p = 1 := by
      have e : backRef { cls := .processRun, uids := [], fields := [("name", .str "bake"), ("_ingredients", .list []), ("_output_material", .ref 1)] } "_output_material" = .ref 1 := by decide +kernel
      rw [e] at hp
      simpa [V.subs] using hp
    subst this
    exact tag1
  · refine ⟨by decide +kernel, fun p hp => ?_⟩
    have e : backRef { cls := .processRun, uids := [], fields := [("name", .str "bake"), ("_ingredients", .list []), ("_output_material", .ref 1)] } "_ingredients" = .list [] := by decide +kernel
    rw [e] at hp
    simp [V.subs, subss] at hp

/-- an entity in its own notes: `repr` does not return -/
theorem C66_own_notes : reprV [{ cls := .propertyTemplate, uids := [], fields := [("notes", .ref 0)] }] (.ref 0) = .error .other := by decide +kernel

end Verif.Repr
