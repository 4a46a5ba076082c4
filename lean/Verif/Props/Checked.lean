import Verif.Model.Checked
import Verif.Props.RoundTrip
/-!
# C69: loading at a validation level — reading with and without the checks
-/

set_option linter.unusedSimpArgs false
set_option linter.unusedVariables false
set_option linter.unusedSectionVars false

namespace Verif.Checked
open Verif.Py Verif.Value Verif.Schema Verif.Json Verif.Level Verif.Substitute

/-! ## A hook with a check -/

section
variable {σ : Type} (hook : List (String × V) → σ → Except PyErr (V × σ)) (P : List (String × V) → V → σ → Prop)

mutual
/-- every object made while reading satisfies `P` -/
def Calls : V → σ → Prop
  | .list l, s => CallsL l s
  | .dict ks vs, s => CallsL vs s ∧ ∀ names vs' s' r s'', strings ks = some names → decs hook vs s = .ok (vs', s') →
      hook (names.zip vs') s' = .ok (r, s'') → P (names.zip vs') r s''
  | _, _ => True
def CallsL : List V → σ → Prop
  | [], _ => True
  | v :: vs, s => Calls v s ∧ ∀ w s', dec hook v s = .ok (w, s') → CallsL vs s'
end

variable {hook P} {hook' : List (String × V) → σ → Except PyErr (V × σ)}
  (hh : ∀ d s r, hook' d s = .ok r ↔ hook d s = .ok r ∧ P d r.1 r.2)
include hh

mutual
theorem dec_checked (v : V) (s : σ) (r : V × σ) : dec hook' v s = .ok r ↔ dec hook v s = .ok r ∧ Calls hook P v s := by
  cases v with
  | list l =>
    simp only [dec, Calls]
    have ih := decs_checked l s
    constructor
    · intro h
      cases e : decs hook' l s with
      | error _ => simp [e] at h
      | ok p =>
        obtain ⟨h1, h2⟩ := (ih p).1 e
        rw [e] at h
        rw [h1]
        exact ⟨h, h2⟩
    · rintro ⟨h, h2⟩
      cases e : decs hook l s with
      | error _ => simp [e] at h
      | ok p =>
        rw [(ih p).2 ⟨e, h2⟩]
        rwa [e] at h
  | dict ks vs =>
    simp only [dec, Calls]
    have ih := decs_checked vs s
    cases hk : strings ks with
    | none => simp
    | some names =>
      simp only
      constructor
      · intro h
        cases e : decs hook' vs s with
        | error _ => simp [e] at h
        | ok p =>
          obtain ⟨h1, h2⟩ := (ih p).1 e
          rw [e] at h
          obtain ⟨vs', s'⟩ := p
          simp only at h
          obtain ⟨h3, h4⟩ := (hh _ _ _).1 h
          rw [h1]
          refine ⟨h3, h2, ?_⟩
          intro names' vs2 s2 r2 s3 e1 e2 e3
          cases e1; cases e2
          rw [h3] at e3
          cases e3
          exact h4
      · rintro ⟨h, h2, h3⟩
        cases e : decs hook vs s with
        | error _ => simp [e] at h
        | ok p =>
          rw [(ih p).2 ⟨e, h2⟩]
          obtain ⟨vs', s'⟩ := p
          rw [e] at h
          simp only at h ⊢
          exact (hh _ _ _).2 ⟨h, h3 names vs' s' r.1 r.2 rfl e h⟩
  | _ => simp [dec, Calls]
termination_by structural v
theorem decs_checked (l : List V) (s : σ) (r : List V × σ) : decs hook' l s = .ok r ↔ decs hook l s = .ok r ∧ CallsL hook P l s := by
  cases l with
  | nil => simp [decs, CallsL]
  | cons v vs =>
    simp only [decs, CallsL]
    have ih1 := dec_checked v s
    constructor
    · intro h
      cases e : dec hook' v s with
      | error _ => simp [e] at h
      | ok p =>
        obtain ⟨h1, h2⟩ := (ih1 p).1 e
        obtain ⟨w, s'⟩ := p
        simp only [e] at h
        cases e' : decs hook' vs s' with
        | error _ => simp [e'] at h
        | ok q =>
          obtain ⟨h3, h4⟩ := (decs_checked vs s' q).1 e'
          simp only [e'] at h
          simp only [h1, h3]
          refine ⟨h, h2, ?_⟩
          intro w2 s2 e2
          cases e2
          exact h4
    · rintro ⟨h, h2, h3⟩
      cases e : dec hook v s with
      | error _ => simp [e] at h
      | ok p =>
        obtain ⟨w, s'⟩ := p
        simp only [e] at h
        cases e' : decs hook vs s' with
        | error _ => simp [e'] at h
        | ok q =>
          simp only [e'] at h
          simp only [(ih1 _).2 ⟨e, h2⟩, (decs_checked vs s' q).2 ⟨e', h3 w s' e⟩]
          exact h
termination_by structural l
end

omit hh in
/-- reading members that leave the state as it is -/
theorem callsL_iff {s : σ} {l : List V} (h : ∀ v ∈ l, ∃ w, dec hook v s = .ok (w, s)) : CallsL hook P l s ↔ ∀ v ∈ l, Calls hook P v s := by
  induction l with
  | nil => simp [CallsL]
  | cons v l ih =>
    obtain ⟨w, hw⟩ := h v (by simp)
    have ih := ih (fun u hu => h u (by simp [hu]))
    simp only [CallsL, List.mem_cons, forall_eq_or_imp, hw, Except.ok.injEq, Prod.mk.injEq]
    constructor
    · rintro ⟨h1, h2⟩; exact ⟨h1, ih.1 (h2 w s ⟨rfl, rfl⟩)⟩
    · rintro ⟨h1, h2⟩
      refine ⟨h1, ?_⟩
      rintro _ _ ⟨rfl, rfl⟩
      exact ih.2 h2

omit hh in
/-- reading a dictionary whose members leave the state as it is -/
theorem calls_mkDict {s : σ} {l : List (String × V)} (a b : V → V) (h : ∀ e ∈ l, dec hook (a e.2) s = .ok (b e.2, s)) :
    Calls hook P (mkDict (onSnd a l)) s ↔ (∀ e ∈ l, Calls hook P (a e.2) s) ∧ ∀ r s', hook (onSnd b l) s = .ok (r, s') → P (onSnd b l) r s' := by
  have e1 : ((onSnd a l).map Prod.snd) = (l.map Prod.snd).map a := onSnd_snd a l
  have hd := decs_of hook s a b (l.map Prod.snd) (by
    intro v hv
    obtain ⟨e, he, rfl⟩ := List.mem_map.1 hv
    exact h e he)
  have hst : strings ((onSnd a l).map (fun f => V.str f.1)) = some (l.map Prod.fst) := by
    have : (onSnd a l).map (fun f => V.str f.1) = (l.map Prod.fst).map .str := by simp [onSnd]
    rw [this]
    exact strings_str _
  have hz : (l.map Prod.fst).zip ((l.map Prod.snd).map b) = onSnd b l := by
    rw [← onSnd_zip, zip_fst_snd]
  simp only [mkDict, Calls]
  rw [e1, callsL_iff (by
    intro v hv
    obtain ⟨u, hu, rfl⟩ := List.mem_map.1 hv
    obtain ⟨e, he, rfl⟩ := List.mem_map.1 hu
    exact ⟨_, h e he⟩), hst, hd]
  constructor
  · rintro ⟨h1, h2⟩
    refine ⟨fun e he => h1 _ (List.mem_map.2 ⟨e.2, List.mem_map.2 ⟨e, he, rfl⟩, rfl⟩), ?_⟩
    intro r s' e
    have := h2 _ _ _ r s' rfl rfl (by rw [hz]; exact e)
    rwa [hz] at this
  · rintro ⟨h1, h2⟩
    refine ⟨?_, ?_⟩
    · intro v hv
      obtain ⟨u, hu, rfl⟩ := List.mem_map.1 hv
      obtain ⟨e, he, rfl⟩ := List.mem_map.1 hu
      exact h1 e he
    · intro names vs' s' r s'' e1 e2 e3
      cases e1; cases e2
      rw [hz] at e3 ⊢
      exact h2 r s'' e3

end

/-- what `loadAndIndexAt` asks for beyond `loadAndIndex` -/
def Passes (J : Judge) (l : Level) (d : List (String × V)) (v : V) (st : Loading) : Prop :=
  Dict.get? d "type" ≠ some (.str "link_by_uid") → guard J l st.mem v = .ok ()

theorem loadAndIndexAt_iff (J : Judge) (l : Level) (env : Env) (sub : Bool) (d : List (String × V)) (st : Loading) (r : V × Loading) :
    loadAndIndexAt J l env sub d st = .ok r ↔ loadAndIndex env sub d st = .ok r ∧ Passes J l d r.1 r.2 := by
  unfold loadAndIndexAt Passes
  cases e : loadAndIndex env sub d st with
  | error _ => simp
  | ok p =>
    obtain ⟨v, st'⟩ := p
    simp only
    by_cases ht : Dict.get? d "type" = some (.str "link_by_uid")
    · simp [ht]
    · rw [if_neg ht]
      cases hg : guard J l st'.mem v with
      | error _ =>
        simp only [reduceCtorEq, Except.ok.injEq, false_iff, not_and]
        rintro rfl h
        have := h ht
        rw [hg] at this
        cases this
      | ok _ =>
        simp only [Except.ok.injEq]
        constructor
        · rintro rfl; exact ⟨rfl, fun _ => hg⟩
        · rintro ⟨h, _⟩; exact h

/-- what comes out of `loads`, from what the records give -/
theorem loadsAt_iff (J : Judge) (l : Level) (env : Env) (m : Mem) (tree : V) (r : V × Mem) :
    loadsAt J l env m tree = .ok r ↔ loads env m tree = .ok r ∧
      Calls (loadAndIndex env true) (Passes J l) tree { mem := m, index := [] } := by
  have key := dec_checked (hook := loadAndIndex env true) (P := Passes J l) (fun d s r => loadAndIndexAt_iff J l env true d s r) tree { mem := m, index := [] }
  unfold loadsAt loads
  constructor
  · intro h
    cases e : dec (loadAndIndexAt J l env true) tree { mem := m, index := [] } with
    | error _ => simp [e] at h
    | ok p =>
      obtain ⟨h1, h2⟩ := (key p).1 e
      rw [e] at h
      rw [h1]
      exact ⟨h, h2⟩
  · rintro ⟨h, h2⟩
    cases e : dec (loadAndIndex env true) tree { mem := m, index := [] } with
    | error _ => simp [e] at h
    | ok p =>
      rw [(key p).2 ⟨e, h2⟩]
      rwa [e] at h

mutual
theorem calls_mono {σ : Type} {hook : List (String × V) → σ → Except PyErr (V × σ)} {P Q : List (String × V) → V → σ → Prop} (h : ∀ d v s, P d v s → Q d v s)
    (v : V) (s : σ) : Calls hook P v s → Calls hook Q v s := by
  cases v with
  | list l => simp only [Calls]; exact callsL_mono h l s
  | dict ks vs =>
    simp only [Calls]
    rintro ⟨h1, h2⟩
    exact ⟨callsL_mono h vs s h1, fun a b c d e f g i => h _ _ _ (h2 a b c d e f g i)⟩
  | _ => simp [Calls]
termination_by structural v
theorem callsL_mono {σ : Type} {hook : List (String × V) → σ → Except PyErr (V × σ)} {P Q : List (String × V) → V → σ → Prop} (h : ∀ d v s, P d v s → Q d v s)
    (l : List V) (s : σ) : CallsL hook P l s → CallsL hook Q l s := by
  cases l with
  | nil => simp [CallsL]
  | cons v vs =>
    simp only [CallsL]
    rintro ⟨h1, h2⟩
    exact ⟨calls_mono h v s h1, fun w s' e => callsL_mono h vs s' (h2 w s' e)⟩
termination_by structural l
end

/-! ## Levels -/

/-- one level is at least as strict as another -/
def stricter : Level → Level → Bool
  | _, .ignore => true
  | .ignore, _ => false
  | _, .warning => true
  | .warning, _ => false
  | .fatal, .fatal => true

theorem verdict_mono {l l' : Level} (h : stricter l l' = true) {r : Except PyErr Bool} (hr : verdict l r = .ok ()) : verdict l' r = .ok () := by
  cases l <;> cases l' <;> simp [stricter] at h <;> cases r with
  | error e => simp [verdict] at hr ⊢
  | ok b => cases b <;> simp [verdict] at hr ⊢

theorem runAll_ok {l : List (Except PyErr Unit)} : runAll l = .ok () ↔ ∀ r ∈ l, r = .ok () := by
  induction l with
  | nil => simp [runAll]
  | cons r l ih =>
    cases r with
    | error e => simp [runAll]
    | ok u => simp [runAll, ih]

theorem guard_mono {J : Judge} {l l' : Level} (h : stricter l l' = true) {m : Mem} {v : V} (hv : guard J l m v = .ok ()) : guard J l' m v = .ok () := by
  cases v with
  | obj t ns vs =>
    simp only [guard] at hv ⊢
    split
    · rename_i ht
      rw [if_pos ht] at hv
      unfold attrGuard at hv ⊢
      split
      · split
        · rfl
        · rename_i hn
          simp only [hn] at hv
          simp_all only [if_false]
          exact verdict_mono h hv
      · rfl
    · rfl
  | ref o =>
    simp only [guard] at hv ⊢
    cases hx : m[o]? with
    | none => rfl
    | some x =>
      rw [hx] at hv
      simp only at hv ⊢
      rw [runAll_ok] at hv ⊢
      intro r hr
      rcases List.mem_append.1 hr with hr | hr
      · unfold listGuards at hr
        split at hr
        · rename_i t ht
          simp only [List.mem_flatMap, List.mem_map] at hr
          obtain ⟨n, hn, a, ha, rfl⟩ := hr
          apply verdict_mono h
          apply hv
          apply List.mem_append_left
          unfold listGuards
          rw [ht]
          simp only [List.mem_flatMap, List.mem_map]
          exact ⟨n, hn, a, ha, rfl⟩
        · simp at hr
      · unfold quantityGuards at hr hv
        split at hr
        · rename_i hq
          simp only [hq, if_true] at hv
          have h2 : ∀ r ∈ ["_mass_fraction", "_volume_fraction", "_number_fraction"].map (fun n =>
              if field m (.ref o) n = .none then (.ok () : Except PyErr Unit) else verdict l (J.fraction (field m (.ref o) n))), r = .ok () :=
            fun r hr => hv r (List.mem_append_right _ (List.mem_append_left _ hr))
          have h3 := hv (if field m (.ref o) "_absolute_quantity" = .none then .ok () else amountGuard J l (field m (.ref o) "_absolute_quantity"))
            (List.mem_append_right _ (List.mem_append_right _ (by simp)))
          rcases List.mem_append.1 hr with hr | hr
          · obtain ⟨n, hn, rfl⟩ := List.mem_map.1 hr
            have := h2 _ (List.mem_map.2 ⟨n, hn, rfl⟩)
            split
            · rfl
            · rename_i hne
              rw [if_neg hne] at this
              exact verdict_mono h this
          · simp only [List.mem_singleton] at hr
            subst hr
            split
            · rfl
            · rename_i hne
              rw [if_neg hne] at h3
              revert h3
              unfold amountGuard
              cases l <;> cases l' <;> simp [stricter] at h <;> cases J.amount (field m (.ref o) "_absolute_quantity") <;> simp
        · simp at hr
  | _ => rfl

theorem guard_ignore (J : Judge) (m : Mem) (v : V) : guard J .ignore m v = .ok () := by
  cases v with
  | obj t ns vs =>
    simp only [guard]
    split
    · unfold attrGuard
      split
      · split <;> simp [verdict]
      · rfl
    · rfl
  | ref o =>
    simp only [guard]
    cases hx : m[o]? with
    | none => rfl
    | some x =>
      simp only
      rw [runAll_ok]
      intro r hr
      rcases List.mem_append.1 hr with hr | hr
      · unfold listGuards at hr
        split at hr
        · simp only [List.mem_flatMap, List.mem_map] at hr
          obtain ⟨n, hn, a, ha, rfl⟩ := hr
          rfl
        · simp at hr
      · unfold quantityGuards at hr
        split at hr
        · rcases List.mem_append.1 hr with hr | hr
          · obtain ⟨n, hn, rfl⟩ := List.mem_map.1 hr
            split <;> rfl
          · simp only [List.mem_singleton] at hr
            subst hr
            split
            · rfl
            · rfl
        · simp at hr
  | _ => rfl

mutual
theorem calls_all {σ : Type} {hook : List (String × V) → σ → Except PyErr (V × σ)} {P : List (String × V) → V → σ → Prop} (h : ∀ d v s, P d v s)
    (v : V) (s : σ) : Calls hook P v s := by
  cases v with
  | list l => simp only [Calls]; exact callsL_all h l s
  | dict ks vs => simp only [Calls]; exact ⟨callsL_all h vs s, fun _ _ _ _ _ _ _ _ => h _ _ _⟩
  | _ => simp [Calls]
termination_by structural v
theorem callsL_all {σ : Type} {hook : List (String × V) → σ → Except PyErr (V × σ)} {P : List (String × V) → V → σ → Prop} (h : ∀ d v s, P d v s)
    (l : List V) (s : σ) : CallsL hook P l s := by
  cases l with
  | nil => simp [CallsL]
  | cons v vs => simp only [CallsL]; exact ⟨calls_all h v s, fun w s' _ => callsL_all h vs s'⟩
termination_by structural l
end

/-! ## The theorems for all documents -/

/-- At IGNORE nothing is checked: `loads` gives what it gives, and raises what it raises. -/
theorem C69_ignore (J : Judge) (env : Env) (m : Mem) (tree : V) : loadsAt J .ignore env m tree = loads env m tree := by
  have : loadAndIndexAt J .ignore env true = loadAndIndex env true := by
    funext d st
    unfold loadAndIndexAt
    cases loadAndIndex env true d st with
    | error e => rfl
    | ok p => simp [guard_ignore]
  unfold loadsAt loads
  rw [this]
  rfl

/-- Raising the level only adds refusals: what a document gives at a stricter level, it gives at any other. -/
theorem C69_levels_agree (J : Judge) (l l' : Level) (h : stricter l l' = true) (env : Env) (m : Mem) (tree : V) (r : V × Mem)
    (hr : loadsAt J l env m tree = .ok r) : loadsAt J l' env m tree = .ok r := by
  rw [loadsAt_iff] at hr ⊢
  exact ⟨hr.1, calls_mono (fun d v s hp ht => guard_mono h (hp ht)) _ _ hr.2⟩

section
variable {σ : Type} {hook hook' : List (String × V) → σ → Except PyErr (V × σ)} (hok : ∀ d s r, hook' d s = .ok r → hook d s = .ok r)
  (herr : ∀ d s e, hook d s = .error e → hook' d s = .error e)
include hok herr

mutual
theorem dec_refused (v : V) (s : σ) (e : PyErr) (h : dec hook' v s = .error e) : dec hook v s = .error e ∨ ∃ d s r, hook d s = .ok r ∧ hook' d s = .error e := by
  cases v with
  | list l =>
    simp only [dec] at h ⊢
    cases e1 : decs hook' l s with
    | error e' =>
      simp only [e1, Except.error.injEq] at h
      subst h
      rcases decs_refused l s _ e1 with h | h
      · left; rw [h]
      · exact .inr h
    | ok p => simp [e1] at h
  | dict ks vs =>
    simp only [dec] at h ⊢
    cases hk : strings ks with
    | none => simp only [hk] at h ⊢; exact .inl h
    | some names =>
      simp only [hk] at h ⊢
      cases e1 : decs hook' vs s with
      | error e' =>
        simp only [e1, Except.error.injEq] at h
        subst h
        rcases decs_refused vs s _ e1 with h | h
        · left; rw [h]
        · exact .inr h
      | ok p =>
        obtain ⟨vs', s'⟩ := p
        simp only [e1] at h
        have := decs_same vs s _ e1
        rw [this]
        simp only
        cases e2 : hook (names.zip vs') s' with
        | error e3 =>
          rw [herr _ _ _ e2] at h
          exact .inl h
        | ok r => exact .inr ⟨_, _, _, e2, h⟩
  | _ => simp [dec] at h
termination_by structural v
theorem decs_refused (l : List V) (s : σ) (e : PyErr) (h : decs hook' l s = .error e) : decs hook l s = .error e ∨ ∃ d s r, hook d s = .ok r ∧ hook' d s = .error e := by
  cases l with
  | nil => simp [decs] at h
  | cons v vs =>
    simp only [decs] at h ⊢
    cases e1 : dec hook' v s with
    | error e' =>
      simp only [e1, Except.error.injEq] at h
      subst h
      rcases dec_refused v s _ e1 with h | h
      · left; rw [h]
      · exact .inr h
    | ok p =>
      obtain ⟨w, s'⟩ := p
      simp only [e1] at h
      rw [dec_same v s _ e1]
      simp only
      cases e2 : decs hook' vs s' with
      | error e' =>
        simp only [e2, Except.error.injEq] at h
        subst h
        rcases decs_refused vs s' _ e2 with h | h
        · left; rw [h]
        · exact .inr h
      | ok q => simp [e2] at h
termination_by structural l
theorem dec_same (v : V) (s : σ) (r : V × σ) (h : dec hook' v s = .ok r) : dec hook v s = .ok r := by
  cases v with
  | list l =>
    simp only [dec] at h ⊢
    cases e1 : decs hook' l s with
    | error e' => simp [e1] at h
    | ok p => rw [decs_same l s _ e1]; rwa [e1] at h
  | dict ks vs =>
    simp only [dec] at h ⊢
    cases hk : strings ks with
    | none => simp [hk] at h
    | some names =>
      simp only [hk] at h ⊢
      cases e1 : decs hook' vs s with
      | error e' => simp [e1] at h
      | ok p =>
        rw [decs_same vs s _ e1]
        rw [e1] at h
        exact hok _ _ _ h
  | _ => simpa [dec] using h
termination_by structural v
theorem decs_same (l : List V) (s : σ) (r : List V × σ) (h : decs hook' l s = .ok r) : decs hook l s = .ok r := by
  cases l with
  | nil => simpa [decs] using h
  | cons v vs =>
    simp only [decs] at h ⊢
    cases e1 : dec hook' v s with
    | error e' => simp [e1] at h
    | ok p =>
      obtain ⟨w, s'⟩ := p
      rw [dec_same v s _ e1]
      simp only [e1] at h ⊢
      cases e2 : decs hook' vs s' with
      | error e' => simp [e2] at h
      | ok q => rw [decs_same vs s' _ e2]; rwa [e2] at h
termination_by structural l
end

end

/-- A document that loads without the checks is refused only by a check: the exception is one that the check of some object raises. -/
theorem loadsAt_refused (J : Judge) (l : Level) (env : Env) (m : Mem) (tree : V) (r : V × Mem) (e : PyErr) (h : loads env m tree = .ok r)
    (he : loadsAt J l env m tree = .error e) : ∃ m' v, guard J l m' v = .error e := by
  unfold loadsAt at he
  unfold loads at h
  cases h1 : dec (loadAndIndexAt J l env true) tree { mem := m, index := [] } with
  | ok p =>
    have := dec_same (hook := loadAndIndex env true) (fun d s r hr => ((loadAndIndexAt_iff J l env true d s r).1 hr).1)
      (fun d s e hr => by simp [loadAndIndexAt, hr]) tree _ _ h1
    rw [this] at h
    rw [h1] at he
    obtain ⟨v, st⟩ := p
    cases v <;> simp only [reduceCtorEq] at h he
    rename_i ks vs
    cases hb : (strings ks).bind (fun names => Dict.get? (names.zip vs) "object") with
    | none => simp [hb] at h
    | some v => simp [hb] at he
  | error e' =>
    simp only [h1, Except.error.injEq] at he
    subst he
    rcases dec_refused (hook := loadAndIndex env true) (fun d s r hr => ((loadAndIndexAt_iff J l env true d s r).1 hr).1)
      (fun d s e hr => by simp [loadAndIndexAt, hr]) tree _ _ h1 with h2 | ⟨d, s, r', h2, h3⟩
    · simp [h2] at h
    · unfold loadAndIndexAt at h3
      simp only [h2] at h3
      split at h3
      · cases h3
      · cases hg : guard J l r'.2.mem r'.1 with
        | ok _ => simp [hg] at h3
        | error e2 => simp only [hg, Except.error.injEq] at h3; subst h3; exact ⟨_, _, hg⟩

theorem runAll_error {l : List (Except PyErr Unit)} {e : PyErr} (h : runAll l = .error e) : .error e ∈ l := by
  induction l with
  | nil => simp [runAll] at h
  | cons r l ih =>
    cases r with
    | error e' => simp only [runAll, Except.error.injEq] at h; simp [h]
    | ok u => simp only [runAll] at h; exact List.mem_cons_of_mem _ (ih h)

/-- the checks themselves never raise -/
structure Total (J : Judge) : Prop where
  within : ∀ b v, ∃ a, J.within b v = .ok a
  fraction : ∀ v, ∃ a, J.fraction v = .ok a
  amount : ∀ v, ∃ a, J.amount v = .ok a

theorem verdict_error {l : Level} {r : Except PyErr Bool} {e : PyErr} (h : verdict l r = .error e) : r = .error e ∨ (l = .fatal ∧ e = .valueError) := by
  cases l <;> cases r with
  | error e' => simp [verdict] at h <;> simp [h]
  | ok b => cases b <;> simp [verdict] at h <;> simp [h]

theorem validate_error {J : Judge} (hJ : Total J) {m : Mem} {k : ECls} {es : List V} {a : V} {e : PyErr} (h : validate J m k es a = .error e) : e = .attributeError := by
  unfold validate at h
  have key : ∀ es e, applies J m (view a).1 (view a).2.1 es = .error e → e = .attributeError := by
    intro es
    induction es with
    | nil => intro e h; simp [applies] at h
    | cons x es ih =>
      intro e h
      simp only [applies] at h
      split at h
      · exact ih e h
      · split at h
        · split at h
          · cases h
          · exact ih e h
        · split at h
          · split at h
            · cases h
            · exact ih e h
          · cases h; rfl
  split at h
  · rename_i e' h1; cases h; exact key _ _ h1
  · cases h
  · split at h
    · obtain ⟨b, hb⟩ := hJ.within _ (view a).2.2
      rw [hb] at h; cases h
    · split at h
      · obtain ⟨b, hb⟩ := hJ.within _ (view a).2.2
        rw [hb] at h; cases h
      · cases h

/-- what the checks raise: a ValueError, at FATAL; an AttributeError, where a name is compared with that of a link -/
theorem guard_error {J : Judge} (hJ : Total J) {l : Level} {m : Mem} {v : V} {e : PyErr} (h : guard J l m v = .error e) :
    e = .attributeError ∨ (l = .fatal ∧ e = .valueError) := by
  cases v with
  | obj t ns vs =>
    simp only [guard] at h
    split at h
    · unfold attrGuard at h
      split at h
      · split at h
        · cases h
        · rcases verdict_error h with h | h
          · obtain ⟨b, hb⟩ := hJ.within (field m (.ref _) "_bounds") (attr ns vs "value")
            rw [hb] at h; cases h
          · exact .inr h
      · cases h
    · cases h
  | ref o =>
    simp only [guard] at h
    cases hx : m[o]? with
    | none => simp [hx] at h
    | some x =>
      simp only [hx] at h
      rcases List.mem_append.1 (runAll_error h) with hr | hr
      · unfold listGuards at hr
        split at hr
        · simp only [List.mem_flatMap, List.mem_map] at hr
          obtain ⟨n, hn, a, ha, hv⟩ := hr
          rcases verdict_error hv with hv | hv
          · exact .inl (validate_error hJ hv)
          · exact .inr hv
        · simp at hr
      · unfold quantityGuards at hr
        split at hr
        · rcases List.mem_append.1 hr with hr | hr
          · obtain ⟨n, hn, hv⟩ := List.mem_map.1 hr
            split at hv
            · cases hv
            · rcases verdict_error hv with hv | hv
              · obtain ⟨b, hb⟩ := hJ.fraction (field m (.ref o) n)
                rw [hb] at hv; cases hv
              · exact .inr hv
          · simp only [List.mem_cons, List.not_mem_nil, or_false] at hr
            split at hr
            · cases hr
            · unfold amountGuard at hr
              obtain ⟨b, hb⟩ := hJ.amount (field m (.ref o) "_absolute_quantity")
              rw [hb] at hr
              cases l <;> simp at hr
              exact .inr ⟨rfl, hr⟩
        · simp at hr
  | _ => simp [guard] at h

/-- What loads at IGNORE is refused at another level only with a ValueError, at FATAL, or with an AttributeError. -/
theorem C69_refusal (J : Judge) (hJ : Total J) (l : Level) (env : Env) (m : Mem) (tree : V) (r : V × Mem) (e : PyErr) (h : loads env m tree = .ok r)
    (he : loadsAt J l env m tree = .error e) : e = .attributeError ∨ (l = .fatal ∧ e = .valueError) := by
  obtain ⟨m', v, hg⟩ := loadsAt_refused J l env m tree r e h he
  exact guard_error hJ hg

end Verif.Checked
