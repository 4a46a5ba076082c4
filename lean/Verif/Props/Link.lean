import Verif.Model.Link
import Verif.Props.CIDict
/-!
# C31, C32: links and the entities they identify
-/
set_option linter.unusedSimpArgs false
set_option linter.unusedSectionVars false
set_option linter.unusedVariables false

namespace Verif.Link
open Verif.Py Verif.CIDict

/-! ## Specification -/

/-- uids as they come about: the constructor, then any history of operations (whose `update` batches do not contain one scope in two
casings, see C01) -/
def Made (lower : String → String) (u : Uids) : Prop :=
  ∃ (seed : List (String × Val)) (ops : List (Op String Val)) (s0 : Uids), CIDict.init lower seed = .ok s0 ∧
    (∀ o ∈ ops, o.OK lower) ∧ (CIDict.run lower s0 ops).1 = u

/-- the entity whose uids list as `items` carries the id under the scope, ignoring the case of the scope -/
def Carries (lower : String → String) (items : List (String × Val)) (scope : String) (id : Val) : Prop :=
  ∃ s, (s, id) ∈ items ∧ lower s = lower scope

theorem Made.inv {lower : String → String} {u : Uids} (h : Made lower u) : Inv lower u := by
  obtain ⟨seed, ops, s0, h1, h2, rfl⟩ := h
  rcases C02_init_iff lower seed with ⟨hc, s, hs⟩ | ⟨_, hs⟩
  · obtain ⟨s, e1, _, e3⟩ := inv_init (lower := lower) hc
    rw [e1] at h1
    cases h1
    exact (run_refines e3 ops h2).2.2
  · rw [hs] at h1; cases h1

variable {lower : String → String} {u : Uids}

theorem carries_find (h : Inv lower u) {scope : String} {id : Val} :
    Carries lower u.main scope id ↔ ∃ e, Spec.find lower u.main scope = some e ∧ e.2 = id := by
  constructor
  · rintro ⟨s, hm, hl⟩
    exact ⟨(s, id), (find_some_iff h.distinct).mpr ⟨hm, hl⟩, rfl⟩
  · rintro ⟨e, he, rfl⟩
    obtain ⟨h1, h2⟩ := (find_some_iff h.distinct).mp he
    exact ⟨e.1, h1, h2⟩

theorem not_carries_find (h : Inv lower u) {scope : String} :
    (∀ id, ¬ Carries lower u.main scope id) ↔ Spec.find lower u.main scope = none := by
  cases hf : Spec.find lower u.main scope with
  | none =>
    refine ⟨fun _ => rfl, fun _ id hc => ?_⟩
    obtain ⟨e, he, _⟩ := (carries_find h).mp hc
    rw [hf] at he; cases he
  | some e =>
    refine ⟨fun hn => absurd ((carries_find h).mpr ⟨e, hf, rfl⟩) (hn e.2), fun hn => by cases hn⟩

theorem getItem_find (h : Inv lower u) (scope : String) :
    getItem lower u scope = match Spec.find lower u.main scope with
      | some e => .ok e.2
      | none => .error .keyError := by
  unfold getItem
  rw [h.low_eq]
  cases hf : Spec.find lower u.main scope with
  | none => rfl
  | some e => simp only [Option.map_some, h.main_get hf]

theorem getUid_find (h : Inv lower u) (scope : String) :
    getUid lower u scope = .ok (match Spec.find lower u.main scope with
      | some e => e.2
      | none => .none) := by
  unfold getUid CIDict.get
  rw [low_has_iff h, getItem_find h]
  cases Spec.find lower u.main scope <;> rfl

/-! ## C31 -/

theorem carries_iff_linkEq (h : Inv lower u) (l : Link) :
    linkEqEntity lower l u = .ok (decide (∃ e, Spec.find lower u.main l.scope = some e ∧ e.2 = l.id)) := by
  unfold linkEqEntity
  rw [low_has_iff h, getItem_find h]
  cases hf : Spec.find lower u.main l.scope with
  | none => simp
  | some e => simp

/-- C31: what `to_link` returns is a scope/id pair that the entity carries; it is under the requested scope if the entity has one
there, else - only possible without a request or with the fallback - the entity's first pair; and the link equals the entity, in both
directions. `to_link` returns no new state: it cannot modify the entity. -/
theorem C31_to_link (hu : Made lower u) (scope : Option String) (fallback : Bool) (l : Link)
    (hl : toLink lower u scope fallback = .ok l) :
    Carries lower u.main l.scope l.id ∧ l.id ≠ .none ∧
    (∀ r, scope = some r → (∃ id, Carries lower u.main r id) → l.scope = r) ∧
    ((scope = none ∨ ∃ r, scope = some r ∧ ∀ id, ¬ Carries lower u.main r id) → u.main.head? = some (l.scope, l.id)) ∧
    (∀ r, scope = some r → (∀ id, ¬ Carries lower u.main r id) → fallback = true) ∧
    linkEqEntity lower l u = .ok true ∧ entityEqLink lower u l = .ok true := by
  have h := hu.inv
  unfold toLink at hl
  split at hl
  · cases hl
  · rename_i first v0 rest hmain
    have hfirst : Spec.find lower u.main first = some (first, v0) :=
      (find_some_iff h.distinct).mpr ⟨by rw [hmain]; simp, rfl⟩
    rw [getUid_find h] at hl
    have step : ∀ sc, linkFor sc (.ok (match Spec.find lower u.main sc with
          | some e => e.2
          | none => .none)) = .ok l → l.scope = sc ∧ l.id ≠ .none ∧ ∃ e, Spec.find lower u.main sc = some e ∧ e.2 = l.id := by
      intro sc hsc
      cases hf : Spec.find lower u.main sc with
      | none => rw [hf] at hsc; cases hsc
      | some e =>
        rw [hf] at hsc
        dsimp only [linkFor] at hsc
        cases he : e.2 <;> rw [he] at hsc <;> cases hsc
        · exact ⟨rfl, by simp, e, rfl, he⟩
        · exact ⟨rfl, by simp, e, rfl, he⟩
    have hl' : l.scope = chooseScope lower u first fallback scope ∧ l.id ≠ .none ∧
        ∃ e, Spec.find lower u.main (chooseScope lower u first fallback scope) = some e ∧ e.2 = l.id := by
      exact step _ hl
    obtain ⟨h1, h2, e, h3, h4⟩ := hl'
    have hc : Carries lower u.main l.scope l.id := (carries_find h).mpr ⟨e, by rw [h1]; exact h3, h4⟩
    refine ⟨hc, h2, ?_, ?_, ?_, ?_, ?_⟩
    · rintro r rfl ⟨id, hid⟩
      rw [h1]
      obtain ⟨e', he', _⟩ := (carries_find h).mp hid
      simp [chooseScope, low_has_iff h, he']
    · intro hor
      have : chooseScope lower u first fallback scope = first := by
        rcases hor with rfl | ⟨r, rfl, hr⟩
        · rfl
        · rw [not_carries_find h] at hr
          simp only [chooseScope, low_has_iff h, hr] at h3 ⊢
          cases fallback
          · simp [hr] at h3
          · simp
      rw [this] at h1 h3
      rw [h3] at hfirst
      cases hfirst
      rw [hmain, h1, ← h4]
      rfl
    · rintro r rfl hr
      rw [not_carries_find h] at hr
      cases fallback
      · simp [chooseScope, hr] at h3
      · rfl
    · rw [carries_iff_linkEq h]
      have := (carries_find h).mp hc
      simpa using this
    · unfold entityEqLink
      rw [getUid_find h, h1, h3]
      simp [h4]

/-- C31: `to_link` raises exactly when there is no suitable uid - the entity has none, or none under the requested scope and no
fallback is allowed, or the one it has there is None - and then it raises ValueError. -/
theorem C31_to_link_raises_iff (hu : Made lower u) (scope : Option String) (fallback : Bool) :
    (∃ e, toLink lower u scope fallback = .error e) ↔
      (u.main = [] ∨
       (∃ r, scope = some r ∧ fallback = false ∧ ∀ id, ¬ Carries lower u.main r id) ∨
       (∃ r, scope = some r ∧ Carries lower u.main r .none) ∨
       ((scope = none ∨ ∃ r, scope = some r ∧ fallback = true ∧ ∀ id, ¬ Carries lower u.main r id) ∧
          ∃ s, u.main.head? = some (s, .none))) := by
  have h := hu.inv
  cases hmain : u.main with
  | nil => simp [toLink, hmain]
  | cons p rest =>
    obtain ⟨first, v0⟩ := p
    have hfirst : Spec.find lower u.main first = some (first, v0) :=
      (find_some_iff h.distinct).mpr ⟨by rw [hmain]; simp, rfl⟩
    have hgen : (∃ e, toLink lower u scope fallback = .error e) ↔
        (Spec.find lower u.main (chooseScope lower u first fallback scope) = none ∨
          ∃ e, Spec.find lower u.main (chooseScope lower u first fallback scope) = some e ∧ e.2 = .none) := by
      unfold toLink
      rw [hmain]
      dsimp only
      rw [getUid_find h, ← hmain]
      cases hf : Spec.find lower u.main (chooseScope lower u first fallback scope) with
      | none => simp [linkFor]
      | some e => cases he : e.2 <;> simp [linkFor, he]
    rw [hgen, ← hmain]
    have hne : ¬ (u.main = []) := by rw [hmain]; simp
    have hhead : ∀ v, (∃ s, u.main.head? = some (s, v)) ↔ v0 = v := by intro v; rw [hmain]; simp
    cases scope with
    | none =>
      have e1 : chooseScope lower u first fallback none = first := rfl
      rw [e1, hfirst]
      simp only [hhead]
      simp [hne]
    | some r =>
      have hcn := not_carries_find h (scope := r)
      have hcc : Carries lower u.main r .none ↔ _ := carries_find h
      simp only [hhead]
      cases hf : Spec.find lower u.main r with
      | none =>
        rw [hf] at hcn hcc
        have hcn' := hcn.mpr rfl
        cases fallback
        · have e1 : chooseScope lower u first false (some r) = r := by simp [chooseScope]
          rw [e1, hf]
          simp [hne, hcn', hcc]
        · have e1 : chooseScope lower u first true (some r) = first := by simp [chooseScope, low_has_iff h, hf]
          rw [e1, hfirst]
          simp [hne, hcn', hcc]
      | some e =>
        rw [hf] at hcn hcc
        have hcn' : ¬ ∀ id, ¬ Carries lower u.main r id := fun hh => by cases hcn.mp hh
        have e1 : chooseScope lower u first fallback (some r) = r := by simp [chooseScope, low_has_iff h, hf]
        rw [e1, hf]
        have hcc' : Carries lower u.main r .none ↔ e.2 = .none := by rw [hcc]; simp
        simp [hne, hcc', hcn']

/-- C31: the exception is a ValueError -/
theorem C31_to_link_valueError (hu : Made lower u) (scope : Option String) (fallback : Bool) (e : PyErr)
    (he : toLink lower u scope fallback = .error e) : e = .valueError := by
  have h := hu.inv
  unfold toLink at he
  split at he
  · cases he; rfl
  · rw [getUid_find h] at he
    cases hv : (match Spec.find lower u.main (chooseScope lower u _ fallback scope) with
      | some e => e.2
      | none => Val.none) <;> rw [hv] at he <;> cases he
    rfl

/-- C31: `from_entity` succeeds; the link's pair is carried by the entity afterwards and equals it, in both directions; it is under the
requested scope (default "auto") if the entity had one there; the entity changes only if it had no uid at all, and then it gains the one
fresh id under the requested scope. -/
theorem C31_from_entity (hu : Made lower u) (fresh : String) (scope : Option String) :
    ∃ l, (fromEntity lower fresh u scope).2 = .ok l ∧
      Carries lower (fromEntity lower fresh u scope).1.main l.scope l.id ∧
      linkEqEntity lower l (fromEntity lower fresh u scope).1 = .ok true ∧
      entityEqLink lower (fromEntity lower fresh u scope).1 l = .ok true ∧
      ((∃ id, Carries lower u.main (scope.getD "auto") id) → l.scope = scope.getD "auto") ∧
      (u.main ≠ [] → (fromEntity lower fresh u scope).1 = u) ∧
      (u.main = [] → (fromEntity lower fresh u scope).1.main = [(scope.getD "auto", .str fresh)] ∧ l = ⟨scope.getD "auto", .str fresh⟩) := by
  have h := hu.inv
  have fin : ∀ (u' : Uids) (l : Link), Inv lower u' → Carries lower u'.main l.scope l.id →
      linkEqEntity lower l u' = .ok true ∧ entityEqLink lower u' l = .ok true := by
    intro u' l h' hc
    obtain ⟨e, h1, h2⟩ := (carries_find h').mp hc
    constructor
    · rw [carries_iff_linkEq h']; simp [h1, h2]
    · unfold entityEqLink; rw [getUid_find h', h1]; simp [h2]
  generalize hsc : scope.getD "auto" = sc
  cases hf : Spec.find lower u.main sc with
  | some e =>
    have hfe : fromEntity lower fresh u scope = (u, .ok ⟨sc, e.2⟩) := by
      unfold fromEntity
      simp only [hsc, low_has_iff h, hf, getItem_find h]
      rfl
    have hc : Carries lower u.main sc e.2 := (carries_find h).mpr ⟨e, hf, rfl⟩
    rw [hfe]
    refine ⟨⟨sc, e.2⟩, rfl, hc, (fin u ⟨sc, e.2⟩ h hc).1, (fin u ⟨sc, e.2⟩ h hc).2, fun _ => rfl, fun _ => rfl, ?_⟩
    intro hnil
    rw [hnil] at hf
    cases hf
  | none =>
    have hno := (not_carries_find h).mpr hf
    cases hm : u.main with
    | cons p rest =>
      obtain ⟨s, i⟩ := p
      have hfe : fromEntity lower fresh u scope = (u, .ok ⟨s, i⟩) := by
        unfold fromEntity
        simp only [hsc, low_has_iff h, hf, ensureUid]
        simp only [hm]
        rfl
      have hc : Carries lower u.main s i := ⟨s, by rw [hm]; simp, rfl⟩
      rw [hfe]
      refine ⟨⟨s, i⟩, rfl, hc, (fin u ⟨s, i⟩ h hc).1, (fin u ⟨s, i⟩ h hc).2, ?_, fun _ => rfl, by simp⟩
      rintro ⟨id, hid⟩
      rw [← hm] at hid
      exact absurd hid (hno id)
    | nil =>
      have hlow : u.low.get? (lower sc) = none := by rw [h.low_eq, hf]; rfl
      have hfe : fromEntity lower fresh u scope =
          ({ main := [(sc, .str fresh)], low := u.low.set (lower sc) sc }, .ok ⟨sc, .str fresh⟩) := by
        unfold fromEntity
        simp only [hsc, low_has_iff h, hf, ensureUid]
        simp only [hm, setItem, register, hlow]
        rfl
      have hst := h.store (k := sc) (v := .str fresh) (m' := [(sc, .str fresh)]) (by rw [hm]; rfl)
      have hinv : Inv lower (⟨[(sc, .str fresh)], u.low.set (lower sc) sc⟩ : Uids) := by
        have := hst.1
        simpa [hm, Dict.set] using this
      have hc : Carries lower [(sc, .str fresh)] sc (.str fresh) := ⟨sc, by simp, rfl⟩
      rw [hfe]
      refine ⟨⟨sc, .str fresh⟩, rfl, hc, (fin _ ⟨sc, .str fresh⟩ hinv hc).1, (fin _ ⟨sc, .str fresh⟩ hinv hc).2, fun _ => rfl, ?_, ?_⟩
      · intro hne; exact absurd rfl hne
      · intro _; exact ⟨rfl, rfl⟩

/-- the uids {"My": "1", "other": "2"} are `Made`; the requested casing is kept in the link -/
example : Made (fun s => s.toLower) ⟨[("My", .str "1"), ("other", .str "2")], [("my", "My"), ("other", "other")]⟩ :=
  ⟨[("My", .str "1"), ("other", .str "2")], [], _, by decide +kernel, by simp, rfl⟩

example : toLink (fun s => s.toLower) ⟨[("My", .str "1"), ("other", .str "2")], [("my", "My"), ("other", "other")]⟩ (some "OTHER") false =
    .ok ⟨"OTHER", .str "2"⟩ := by decide +kernel

example : fromEntity (fun s => s.toLower) "f" ⟨[], []⟩ none = (⟨[("auto", .str "f")], [("auto", "auto")]⟩, .ok ⟨"auto", .str "f"⟩) := by
  decide +kernel

/-! ## C32 -/

/-- C32: a link equals an entity exactly when the entity carries that id under that scope, ignoring the scope's case -/
theorem C32_link_entity_iff (hu : Made lower u) (l : Link) :
    linkEqEntity lower l u = .ok true ↔ Carries lower u.main l.scope l.id := by
  rw [carries_iff_linkEq hu.inv, carries_find hu.inv]
  simp

/-- C32: the comparison never raises -/
theorem C32_link_entity_total (hu : Made lower u) (l : Link) : ∃ b, linkEqEntity lower l u = .ok b :=
  ⟨_, carries_iff_linkEq hu.inv l⟩

/-- C32: both directions agree, for links whose id is not None. Missing for the full statement: links with the id None, for which the
two directions differ, see the counterexample. -/
theorem C32_symmetric_link_partial (hu : Made lower u) (l : Link) (hid : l.id ≠ .none) :
    entityEqLink lower u l = linkEqEntity lower l u := by
  rw [carries_iff_linkEq hu.inv]
  unfold entityEqLink
  rw [getUid_find hu.inv]
  cases hf : Spec.find lower u.main l.scope with
  | none => simp [Ne.symm hid]
  | some e => simp

/-- C32 fails for a link whose id is None and an entity without an id under its scope: `entity == link` but not `link == entity`. -/
theorem C32_none_id_counterexample :
    ∃ (lower : String → String) (u : Uids) (l : Link), Made lower u ∧ entityEqLink lower u l = .ok true ∧ linkEqEntity lower l u = .ok false :=
  ⟨id, ⟨[], []⟩, ⟨"s", .none⟩, ⟨[], [], ⟨[], []⟩, rfl, by simp, rfl⟩, by decide +kernel, by decide +kernel⟩

/-- C32: an entity equals a (scope, id) pair exactly when it equals the link made of the pair, that is, when it carries the id under the
scope. (Both directions of `==` run the same method.) -/
theorem C32_pair_entity_iff (hu : Made lower u) (s : String) (i : Val) :
    entityEqTuple lower u [.str s, i] = linkEqEntity lower ⟨s, i⟩ u ∧
    (entityEqTuple lower u [.str s, i] = .ok true ↔ Carries lower u.main s i) := by
  have e : entityEqTuple lower u [.str s, i] = linkEqEntity lower ⟨s, i⟩ u := rfl
  exact ⟨e, by rw [e]; exact C32_link_entity_iff hu ⟨s, i⟩⟩

/-- C32: tuples that are not pairs equal no entity -/
theorem C32_other_tuples (lower : String → String) (u : Uids) (t : List Val) (h : t.length ≠ 2) : entityEqTuple lower u t = .ok false := by
  match t, h with
  | [], _ => rfl
  | [_], _ => simp [entityEqTuple]
  | [_, _], h => exact absurd rfl h
  | _ :: _ :: _ :: _, _ => simp [entityEqTuple]

/-- C32: a link equals a tuple exactly when the tuple is its (scope, id) -/
theorem C32_link_tuple_iff (l : Link) (t : List Val) : linkEqTuple l t = true ↔ t = [.str l.scope, l.id] := by
  unfold linkEqTuple
  simp only [Bool.and_eq_true, decide_eq_true_eq]
  exact ⟨fun h => h.2.symm, fun h => by rw [h]; exact ⟨rfl, rfl⟩⟩

/-- C32: equal links, and a link and a tuple that are equal, hash equally - whatever Python's hash of tuples is; equality of links is an
equivalence that identifies exactly the same scope and id -/
theorem C32_hash (tupleHash : List Val → Int) (a b : Link) (t : List Val) :
    (linkEqLink a b = true → linkHash tupleHash a = linkHash tupleHash b) ∧ (linkEqTuple a t = true → linkHash tupleHash a = tupleHash t) ∧
    (linkEqLink a b = true ↔ a = b) ∧ linkEqLink a b = linkEqLink b a := by
  have key : linkEqLink a b = true ↔ a = b := by
    cases a; cases b; simp [linkEqLink]
  refine ⟨fun h => by rw [key.mp h], fun h => by rw [(C32_link_tuple_iff a t).mp h]; rfl, key, ?_⟩
  cases a; cases b; simp [linkEqLink, eq_comm]

/-- C32: links that differ in the case of the scope can equal the same entity, without being equal to each other -/
theorem C32_not_transitive_counterexample :
    ∃ (lower : String → String) (u : Uids) (a b : Link), Made lower u ∧ linkEqEntity lower a u = .ok true ∧
      entityEqLink lower u b = .ok true ∧ linkEqLink a b = false :=
  ⟨fun s => s.toLower, ⟨[("My", .str "1")], [("my", "My")]⟩, ⟨"MY", .str "1"⟩, ⟨"my", .str "1"⟩,
    ⟨[("My", .str "1")], [], _, by decide +kernel, by simp, rfl⟩, by decide +kernel, by decide +kernel, by decide +kernel⟩

end Verif.Link
