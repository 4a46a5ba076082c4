import Verif.Model.Registry
/-!
# C47: class registration
-/

namespace Verif.Registry
open Verif.Py

/-! ### Specification -/

/-- `a` is `c` or an ancestor of it, by way of `__bases__` -/
inductive Anc (classes : List Cls) : Nat → Nat → Prop where
  | refl (c : Nat) : Anc classes c c
  | base {a b c : Nat} {k : Cls} : classes[c]? = some k → b ∈ k.bases → Anc classes a b → Anc classes a c

/-- the class claims the type string: its statement, which did not raise, had it as an argument -/
def Claims (classes : List Cls) (c : Nat) (t : String) : Prop := ∃ k : Cls, classes[c]? = some k ∧ k.typ = some t

/-- events other than class statements -/
def Event.user : Event → Bool
  | .define _ => false
  | .foreign _ => false
  | _ => true

/-! ### Invariant -/

structure Inv (s : State) : Prop where
  dicts : s.dicts ≠ []
  bases : ∀ (c : Nat) (k : Cls), s.classes[c]? = some k → ∀ b ∈ k.bases, b < c
  mro : ∀ (c : Nat) (k : Cls), s.classes[c]? = some k → ∀ a, a ∈ k.mro ↔ Anc s.classes a c
  skip : ∀ (c : Nat) (k : Cls), s.classes[c]? = some k → ∀ x, x ∈ k.skip.getD [] ↔ ∃ (a : Nat) (ka : Cls), Anc s.classes a c ∧ s.classes[a]? = some ka ∧ x ∈ ka.declared
  last : ∀ t c, s.registry.get? t = some c ↔ Claims s.classes c t ∧ ∀ c', c < c' → ¬ Claims s.classes c' t
  chain : ∀ t c c', Claims s.classes c t → Claims s.classes c' t → c ≤ c' → Anc s.classes c c'

theorem get_old {l : List Cls} {k : Cls} {c : Nat} (h : c < l.length) : (l ++ [k])[c]? = l[c]? := List.getElem?_append_left h
theorem get_lt {l : List Cls} {k : Cls} {c : Nat} (h : l[c]? = some k) : c < l.length := (List.getElem?_eq_some_iff.1 h).1
theorem get_cases {l : List Cls} {k k' : Cls} {c : Nat} (h : (l ++ [k])[c]? = some k') : (c < l.length ∧ l[c]? = some k') ∨ (c = l.length ∧ k' = k) := by
  rcases Nat.lt_trichotomy c l.length with hlt | rfl | hgt
  · exact .inl ⟨hlt, by rw [← h, get_old hlt]⟩
  · simp at h; exact .inr ⟨rfl, h.symm⟩
  · rw [List.getElem?_eq_none (by simp; omega)] at h; cases h

theorem anc_old {l : List Cls} (hb : ∀ (c : Nat) (k : Cls), l[c]? = some k → ∀ b ∈ k.bases, b < c) (k : Cls) {a c : Nat} (hc : c < l.length) :
    Anc (l ++ [k]) a c ↔ Anc l a c := by
  constructor
  · intro h
    induction h with
    | refl => exact .refl _
    | @base b c k' hk hm _ ih =>
      rw [get_old hc] at hk
      exact .base hk hm (ih (Nat.lt_trans (hb _ _ hk _ hm) hc))
  · intro h
    induction h with
    | refl => exact .refl _
    | @base b c k' hk hm _ ih => exact .base (by rw [get_old hc]; exact hk) hm (ih (Nat.lt_trans (hb _ _ hk _ hm) hc))

theorem anc_new {l : List Cls} (hb : ∀ (c : Nat) (k : Cls), l[c]? = some k → ∀ b ∈ k.bases, b < c) (k : Cls) (hk : ∀ b ∈ k.bases, b < l.length) {a : Nat} :
    Anc (l ++ [k]) a l.length ↔ a = l.length ∨ ∃ b ∈ k.bases, Anc l a b := by
  constructor
  · intro h
    cases h with
    | refl => exact .inl rfl
    | base h1 h2 h3 =>
      simp at h1
      subst h1
      exact .inr ⟨_, h2, (anc_old hb k (hk _ h2)).1 h3⟩
  · rintro (rfl | ⟨b, h1, h2⟩)
    · exact .refl _
    · exact .base (k := k) (by simp) h1 ((anc_old hb k (hk _ h1)).2 h2)

theorem anc_le {l : List Cls} (hb : ∀ (c : Nat) (k : Cls), l[c]? = some k → ∀ b ∈ k.bases, b < c) {a c : Nat} (h : Anc l a c) : a ≤ c := by
  induction h with
  | refl => exact Nat.le_refl _
  | base hk hm _ ih => have := hb _ _ hk _ hm; omega

theorem anc_trans {l : List Cls} {a b c : Nat} (h1 : Anc l a b) (h2 : Anc l b c) : Anc l a c := by
  induction h2 with
  | refl => exact h1
  | base hk hm _ ih => exact .base hk hm ih

theorem mem_mroOf {s : State} (h : Inv s) {bases : List Nat} (hb : ∀ b ∈ bases, b < s.classes.length) (a : Nat) :
    a ∈ mroOf s bases ↔ a = s.classes.length ∨ ∃ b ∈ bases, Anc s.classes a b := by
  unfold mroOf
  simp only [List.mem_cons, List.mem_flatMap]
  refine or_congr Iff.rfl ⟨?_, ?_⟩
  · rintro ⟨b, h1, h2⟩
    obtain ⟨k, hk⟩ : ∃ k, s.classes[b]? = some k := ⟨_, List.getElem?_eq_getElem (hb b h1)⟩
    rw [hk] at h2
    exact ⟨b, h1, (h.mro b k hk a).1 h2⟩
  · rintro ⟨b, h1, h2⟩
    obtain ⟨k, hk⟩ : ∃ k, s.classes[b]? = some k := ⟨_, List.getElem?_eq_getElem (hb b h1)⟩
    refine ⟨b, h1, ?_⟩
    rw [hk]
    exact (h.mro b k hk a).2 h2

theorem mem_skipOf {s : State} (h : Inv s) {bases : List Nat} {skip : List String} (hb : ∀ b ∈ bases, b < s.classes.length) (x : String) :
    x ∈ skipOf s bases skip ↔ (∃ b ∈ bases, ∃ (a : Nat) (ka : Cls), Anc s.classes a b ∧ s.classes[a]? = some ka ∧ x ∈ ka.declared) ∨ x ∈ skip := by
  unfold skipOf
  simp only [List.mem_append, List.mem_flatMap]
  refine or_congr ⟨?_, ?_⟩ Iff.rfl
  · rintro ⟨b, h1, h2⟩
    obtain ⟨k, hk⟩ : ∃ k, s.classes[b]? = some k := ⟨_, List.getElem?_eq_getElem (hb b h1)⟩
    rw [hk] at h2
    exact ⟨b, h1, (h.skip b k hk x).1 h2⟩
  · rintro ⟨b, h1, h2⟩
    obtain ⟨k, hk⟩ : ∃ k, s.classes[b]? = some k := ⟨_, List.getElem?_eq_getElem (hb b h1)⟩
    refine ⟨b, h1, ?_⟩
    rw [hk]
    exact (h.skip b k hk x).2 h2

theorem claims_new {l : List Cls} {k : Cls} {c : Nat} {t : String} : Claims (l ++ [k]) c t ↔ Claims l c t ∨ (c = l.length ∧ k.typ = some t) := by
  constructor
  · rintro ⟨k', h1, h2⟩
    rcases get_cases h1 with ⟨_, h⟩ | ⟨rfl, rfl⟩
    · exact .inl ⟨k', h, h2⟩
    · exact .inr ⟨rfl, h2⟩
  · rintro (⟨k', h1, h2⟩ | ⟨rfl, h⟩)
    · exact ⟨k', by rw [get_old (get_lt h1)]; exact h1, h2⟩
    · exact ⟨k, by simp, h⟩

theorem claims_lt {l : List Cls} {c : Nat} {t : String} (h : Claims l c t) : c < l.length := by
  obtain ⟨k, hk, _⟩ := h
  exact get_lt hk

/-- a class that is made keeps what is known of ancestors and skips -/
theorem Inv.extend {s : State} (h : Inv s) (k : Cls) (dicts : List (Dict String Nat)) (hd : dicts ≠ []) (hb : ∀ b ∈ k.bases, b < s.classes.length)
    (hm : k.mro = mroOf s k.bases) (hs : ∀ x, x ∈ k.skip.getD [] ↔ x ∈ skipOf s k.bases k.declared)
    (hl : ∀ t c, (State.mk (s.classes ++ [k]) dicts).registry.get? t = some c ↔
      Claims (s.classes ++ [k]) c t ∧ ∀ c', c < c' → ¬ Claims (s.classes ++ [k]) c' t)
    (hc : ∀ t c, k.typ = some t → s.registry.get? t = some c → c ∈ mroOf s k.bases) : Inv ⟨s.classes ++ [k], dicts⟩ := by
  refine ⟨hd, ?_, ?_, ?_, hl, ?_⟩
  · intro c k' hk b hb'
    rcases get_cases hk with ⟨_, h1⟩ | ⟨rfl, rfl⟩
    · exact h.bases c k' h1 b hb'
    · exact hb b hb'
  · intro c k' hk a
    rcases get_cases hk with ⟨hlt, h1⟩ | ⟨rfl, rfl⟩
    · rw [anc_old h.bases k hlt]; exact h.mro c k' h1 a
    · rw [anc_new h.bases k' hb, hm, mem_mroOf h hb]
  · intro c k' hk x
    rcases get_cases hk with ⟨hlt, h1⟩ | ⟨rfl, rfl⟩
    · rw [h.skip c k' h1 x]
      constructor
      · rintro ⟨a, ka, e1, e2, e3⟩
        exact ⟨a, ka, (anc_old h.bases k hlt).2 e1, by rw [get_old (get_lt e2)]; exact e2, e3⟩
      · rintro ⟨a, ka, e1, e2, e3⟩
        have e1 := (anc_old h.bases k hlt).1 e1
        have := anc_le h.bases e1
        rw [get_old (by omega)] at e2
        exact ⟨a, ka, e1, e2, e3⟩
    · rw [hs, mem_skipOf h hb]
      constructor
      · rintro (⟨b, h1, a, ka, e1, e2, e3⟩ | h1)
        · exact ⟨a, ka, (anc_new h.bases k' hb).2 (.inr ⟨b, h1, e1⟩), by rw [get_old (get_lt e2)]; exact e2, e3⟩
        · exact ⟨_, k', .refl _, by simp, h1⟩
      · rintro ⟨a, ka, e1, e2, e3⟩
        rcases (anc_new h.bases k' hb).1 e1 with rfl | ⟨b, h1, e1⟩
        · simp at e2; subst e2; exact .inr e3
        · have h2 := anc_le h.bases e1
          have h3 := hb b h1
          rw [get_old (by omega)] at e2
          exact .inl ⟨b, h1, a, ka, e1, e2, e3⟩
  · intro t c c' h1 h2 hle
    rcases claims_new.1 h1 with h1 | ⟨rfl, h1⟩
    · rcases claims_new.1 h2 with h2 | ⟨rfl, h6⟩
      · exact (anc_old h.bases k (claims_lt h2)).2 (h.chain t c c' h1 h2 hle)
      · -- the class registered before is an ancestor, and a descendant of `c`
        have hex : ∃ d, Claims s.classes d t ∧ ∀ c', d < c' → ¬ Claims s.classes c' t := by
          apply Classical.byContradiction
          intro hno
          have : ∀ n, ∃ d, n ≤ d ∧ Claims s.classes d t := by
            intro n
            induction n with
            | zero => exact ⟨c, by omega, h1⟩
            | succ n ih =>
              obtain ⟨d, hd, h3⟩ := ih
              apply Classical.byContradiction
              intro hn
              exact hno ⟨d, h3, fun c' hlt hc' => hn ⟨c', by omega, hc'⟩⟩
          obtain ⟨d, hd, h3⟩ := this s.classes.length
          have := claims_lt h3
          omega
        obtain ⟨d, h3, h4⟩ := hex
        have h5 := hc t d h6 ((h.last t d).2 ⟨h3, h4⟩)
        have hlt := claims_lt h3
        rw [mem_mroOf h hb] at h5
        rcases h5 with rfl | ⟨b, hb1, hb2⟩
        · omega
        · have hcd : c ≤ d := by
            apply Classical.byContradiction
            intro hn
            exact h4 c (by omega) h1
          exact (anc_new h.bases k hb).2 (.inr ⟨b, hb1, anc_trans (h.chain t c d h1 h3 hcd) hb2⟩)
    · rcases claims_new.1 h2 with h2 | ⟨rfl, _⟩
      · have := claims_lt h2; omega
      · exact .refl _

theorem registry_set {s : State} (h : s.dicts ≠ []) (cs : List Cls) (d : Dict String Nat) : (State.mk cs (s.dicts.set 0 d)).registry = d := by
  unfold State.registry
  cases hd : s.dicts with
  | nil => exact absurd hd h
  | cons a l => simp

/-- nothing about the registry changes if the new class claims nothing -/
theorem Inv.last_quiet {s : State} (h : Inv s) (k : Cls) (hk : k.typ = none) (t : String) (c : Nat) : s.registry.get? t = some c ↔
    Claims (s.classes ++ [k]) c t ∧ ∀ c', c < c' → ¬ Claims (s.classes ++ [k]) c' t := by
  have : ∀ c, Claims (s.classes ++ [k]) c t ↔ Claims s.classes c t := by
    intro c
    rw [claims_new, hk]
    simp
  simp only [this]
  exact h.last t c

theorem Inv.define {s : State} (h : Inv s) (d : Stmt) (hb : s.bound d.bases = true) : Inv (define s d).1 := by
  have hb : ∀ b ∈ d.bases, b < s.classes.length := by simpa [State.bound, List.all_eq_true] using hb
  unfold Registry.define
  simp only
  cases hd : d.typ with
  | none =>
    simp only
    refine h.extend _ _ h.dicts hb rfl (by simp) ?_ (by simp)
    intro t c
    exact h.last_quiet _ rfl t c
  | some typ =>
    simp only
    split
    · exact h
    · rename_i hcond
      unfold taken at hcond
      refine h.extend _ _ (by simpa using h.dicts) hb rfl (by simp) ?_ ?_
      · intro t c
        rw [registry_set h.dicts, Dict.get?_set]
        split
        · rename_i e
          subst e
          constructor
          · intro e
            cases e
            refine ⟨claims_new.2 (.inr ⟨rfl, rfl⟩), ?_⟩
            intro c' hlt hc
            rcases claims_new.1 hc with h1 | ⟨rfl, _⟩
            · have := claims_lt h1; omega
            · omega
          · rintro ⟨h1, h2⟩
            rcases claims_new.1 h1 with h1 | ⟨rfl, _⟩
            · exact absurd (claims_new.2 (.inr ⟨rfl, rfl⟩)) (h2 _ (claims_lt h1))
            · rfl
        · rename_i e
          have : ∀ c, Claims (s.classes ++ [{ bases := d.bases, mro := mroOf s d.bases, typ := some typ, skip := some (skipOf s d.bases d.skip), declared := d.skip }]) c t ↔
              Claims s.classes c t := by
            intro c
            rw [claims_new]
            simp [e]
          simp only [this]
          exact h.last t c
      · intro t c e hr
        cases e
        rw [hr] at hcond
        simp only [decide_eq_true_eq] at hcond
        exact Classical.byContradiction hcond

theorem Inv.foreign {s : State} (h : Inv s) (bases : List Nat) (hp : s.plain bases = true) : Inv (foreign s bases) := by
  have hp : ∀ b ∈ bases, ∃ k : Cls, s.classes[b]? = some k ∧ k.skip = none := by
    intro b hb
    have := List.all_eq_true.1 hp b hb
    cases hk : s.classes[b]? with
    | none => rw [hk] at this; cases this
    | some k => rw [hk] at this; exact ⟨k, rfl, by simpa using this⟩
  have hb : ∀ b ∈ bases, b < s.classes.length := fun b hb => get_lt (hp b hb).choose_spec.1
  unfold Registry.foreign
  refine h.extend _ _ h.dicts hb rfl ?_ (fun t c => h.last_quiet _ rfl t c) (by simp)
  intro x
  simp only [Option.getD_none, List.not_mem_nil, false_iff, skipOf, List.append_nil, List.mem_flatMap, not_exists, not_and]
  intro b hb1 hx
  obtain ⟨k, hk, e⟩ := hp b hb1
  rw [hk] at hx
  simp [e] at hx

/-- the mappings given to users are not the registry -/
def Given (s : State) (given : List Nat) : Prop := ∀ a ∈ given, 0 < a ∧ a < s.dicts.length

theorem define_dicts (s : State) (d : Stmt) : (define s d).1.dicts.length = s.dicts.length := by
  unfold Registry.define
  simp only
  split
  · split
    · rfl
    · simp
  · rfl

theorem modify_spec {s : State} {given : List Nat} (hg : Given s given) (h : Nat) (f : Dict String Nat → Dict String Nat) :
    (s.modify given[h]? f).classes = s.classes ∧ (s.modify given[h]? f).registry = s.registry ∧ (s.modify given[h]? f).dicts.length = s.dicts.length := by
  cases hh : given[h]? with
  | none => exact ⟨rfl, rfl, rfl⟩
  | some a =>
    obtain ⟨h1, h2⟩ := hg a (List.mem_of_getElem? hh)
    refine ⟨rfl, ?_, by simp [State.modify]⟩
    unfold State.modify State.registry
    cases hd : s.dicts with
    | nil => simp
    | cons d ds =>
      obtain ⟨a, rfl⟩ : ∃ b, a = b + 1 := ⟨a - 1, by omega⟩
      simp [List.modify_succ_cons]

theorem Inv.congr {s s' : State} (h : Inv s) (h1 : s'.classes = s.classes) (h2 : s'.registry = s.registry) (h3 : s'.dicts ≠ []) : Inv s' := by
  obtain ⟨a, b, c, d, e, f⟩ := h
  exact ⟨h3, by rw [h1]; exact b, by rw [h1]; exact c, by rw [h1]; exact d, by rw [h1, h2]; exact e, by rw [h1]; exact f⟩

theorem mapping_registry {s : State} (h : s.dicts ≠ []) : (classMapping s).1.registry = s.registry := by
  unfold classMapping State.registry
  cases hd : s.dicts with
  | nil => exact absurd hd h
  | cons d ds => rfl

theorem inv_step {s : State} {given : List Nat} (h : Inv s) (hg : Given s given) (e : Event) :
    Inv (step (s, given) e).1 ∧ Given (step (s, given) e).1 (step (s, given) e).2 := by
  cases e with
  | define d =>
    simp only [step]
    split
    · rename_i hb
      exact ⟨h.define d hb, fun a ha => by rw [define_dicts]; exact hg a ha⟩
    · exact ⟨h, hg⟩
  | foreign bases =>
    simp only [step]
    split
    · rename_i hb
      exact ⟨h.foreign bases hb, hg⟩
    · exact ⟨h, hg⟩
  | mapping =>
    simp only [step]
    refine ⟨h.congr rfl (mapping_registry h.dicts) (by simp [classMapping]), ?_⟩
    intro a ha
    simp only [classMapping, List.length_append, List.length_singleton, List.mem_append, List.mem_singleton] at ha ⊢
    have : s.dicts.length ≠ 0 := by simpa using h.dicts
    rcases ha with ha | rfl
    · have := hg a ha; omega
    · omega
  | setItem i t c =>
    obtain ⟨h1, h2, h3⟩ := modify_spec hg i (·.set t c)
    refine ⟨h.congr h1 h2 ?_, fun a ha => ?_⟩
    · intro e
      have : s.dicts.length ≠ 0 := by simpa using h.dicts
      rw [show (step (s, given) (.setItem i t c)).1.dicts = (s.modify given[i]? (·.set t c)).dicts from rfl] at e
      rw [e] at h3
      simp at h3
      omega
    · simp only [step, h3] at ha ⊢
      exact hg a ha
  | delItem i t =>
    obtain ⟨h1, h2, h3⟩ := modify_spec hg i (·.erase t)
    refine ⟨h.congr h1 h2 ?_, fun a ha => ?_⟩
    · intro e
      have : s.dicts.length ≠ 0 := by simpa using h.dicts
      rw [show (step (s, given) (.delItem i t)).1.dicts = (s.modify given[i]? (·.erase t)).dicts from rfl] at e
      rw [e] at h3
      simp at h3
      omega
    · simp only [step, h3] at ha ⊢
      exact hg a ha

theorem inv_start : Inv .start := by
  refine ⟨by simp [State.start], ?_, ?_, ?_, ?_, ?_⟩ <;> simp [State.start, State.registry, Claims]

theorem inv_fold (es : List Event) {s : State} {given : List Nat} (h : Inv s) (hg : Given s given) :
    Inv (es.foldl step (s, given)).1 ∧ Given (es.foldl step (s, given)).1 (es.foldl step (s, given)).2 := by
  induction es generalizing s given with
  | nil => exact ⟨h, hg⟩
  | cons e es ih =>
    obtain ⟨h1, h2⟩ := inv_step h hg e
    exact ih h1 h2

theorem inv_run (es : List Event) : Inv (run es).1 ∧ Given (run es).1 (run es).2 := inv_fold es inv_start (by simp [Given])

/-! ### Theorems -/

/-- After any sequence of events, a type string is mapped to the class that claimed it last. -/
theorem C47_most_recent (es : List Event) (t : String) (c : Nat) : (run es).1.registry.get? t = some c ↔
    Claims (run es).1.classes c t ∧ ∀ c', c < c' → ¬ Claims (run es).1.classes c' t := (inv_run es).1.last t c

/-- If two classes claim the same type string, the one defined first is an ancestor of the other. -/
theorem C47_only_from_ancestors (es : List Event) (t : String) (c c' : Nat) (h : Claims (run es).1.classes c t) (h' : Claims (run es).1.classes c' t) (hle : c ≤ c') :
    Anc (run es).1.classes c c' := (inv_run es).1.chain t c c' h h' hle

/-- A class statement raises exactly if its type string is taken by a class that no base is or descends from, and then nothing changes. Otherwise there is a new class,
which the type string, if there is one, is mapped to; other type strings keep their classes. -/
theorem C47_define (es : List Event) (d : Stmt) (hb : ∀ b ∈ d.bases, b < (run es).1.classes.length) :
    ((∃ t c, d.typ = some t ∧ (run es).1.registry.get? t = some c ∧ ∀ b ∈ d.bases, ¬ Anc (run es).1.classes c b) ∧
      define (run es).1 d = ((run es).1, .error .valueError)) ∨
    ((∀ t c, d.typ = some t → (run es).1.registry.get? t = some c → ∃ b ∈ d.bases, Anc (run es).1.classes c b) ∧
      ∃ k : Cls, k.bases = d.bases ∧ k.typ = d.typ ∧ (define (run es).1 d).1.classes = (run es).1.classes ++ [k] ∧
        (define (run es).1 d).2 = .ok (run es).1.classes.length ∧
        ∀ t, (define (run es).1 d).1.registry.get? t = if d.typ = some t then some (run es).1.classes.length else (run es).1.registry.get? t) := by
  have h := (inv_run es).1
  generalize (run es).1 = s at *
  unfold Registry.define
  simp only
  cases hd : d.typ with
  | none => exact .inr ⟨by simp, _, rfl, rfl, rfl, rfl, fun t => by simp [State.registry]⟩
  | some typ =>
    simp only
    cases ht : taken s typ (mroOf s d.bases) with
    | true =>
      rw [if_pos rfl]
      unfold taken at ht
      cases hr : s.registry.get? typ with
      | none => rw [hr] at ht; cases ht
      | some c =>
        rw [hr] at ht
        simp only [decide_eq_true_eq, mem_mroOf h hb] at ht
        exact .inl ⟨⟨typ, c, rfl, hr, fun b hb1 hb2 => ht (.inr ⟨b, hb1, hb2⟩)⟩, rfl⟩
    | false =>
      rw [if_neg (by simp)]
      refine .inr ⟨?_, _, rfl, rfl, rfl, rfl, ?_⟩
      · intro t c e hr
        cases e
        unfold taken at ht
        rw [hr] at ht
        simp only [decide_eq_false_iff_not, Classical.not_not, mem_mroOf h hb] at ht
        rcases ht with rfl | ht
        · have := claims_lt ((h.last _ _).1 hr).1; omega
        · exact ht
      · intro t
        rw [registry_set h.dicts, Dict.get?_set]
        by_cases e : typ = t
        · simp [e]
        · simp [e]

/-- Whatever users do with the mappings they are given, the registry and the classes are those that the class statements alone lead to. -/
theorem C47_mapping_is_a_copy (es : List Event) : (run es).1.classes = (run (es.filter (!·.user))).1.classes ∧
    (run es).1.registry = (run (es.filter (!·.user))).1.registry := by
  have key : ∀ (es : List Event) (s s' : State) (given given' : List Nat), Inv s → Inv s' → Given s given → Given s' given' → s.classes = s'.classes →
      s.registry = s'.registry → (es.foldl step (s, given)).1.classes = ((es.filter (!·.user)).foldl step (s', given')).1.classes ∧
        (es.foldl step (s, given)).1.registry = ((es.filter (!·.user)).foldl step (s', given')).1.registry := by
    intro es
    induction es with
    | nil => intro s s' _ _ _ _ _ _ h1 h2; exact ⟨h1, h2⟩
    | cons e es ih =>
      intro s s' given given' hs hs' hg hg' h1 h2
      obtain ⟨i1, i2⟩ := inv_step hs hg e
      have same : (step (s, given) e).1.classes = s.classes → (step (s, given) e).1.registry = s.registry → e.user = true →
          ((e :: es).foldl step (s, given)).1.classes = (((e :: es).filter (!·.user)).foldl step (s', given')).1.classes ∧
          ((e :: es).foldl step (s, given)).1.registry = (((e :: es).filter (!·.user)).foldl step (s', given')).1.registry := by
        intro e1 e2 e3
        rw [List.filter_cons_of_neg (by simp [e3])]
        exact ih _ s' _ given' i1 hs' i2 hg' (e1.trans h1) (e2.trans h2)
      have both : (step (s, given) e).1.classes = (step (s', given') e).1.classes → (step (s, given) e).1.registry = (step (s', given') e).1.registry →
          e.user = false → ((e :: es).foldl step (s, given)).1.classes = (((e :: es).filter (!·.user)).foldl step (s', given')).1.classes ∧
          ((e :: es).foldl step (s, given)).1.registry = (((e :: es).filter (!·.user)).foldl step (s', given')).1.registry := by
        intro e1 e2 e3
        obtain ⟨j1, j2⟩ := inv_step hs' hg' e
        rw [List.filter_cons_of_pos (by simp [e3])]
        exact ih _ _ _ _ i1 j1 i2 j2 e1 e2
      cases e with
      | define d =>
        have hm : mroOf s d.bases = mroOf s' d.bases := by unfold mroOf; rw [h1]
        have hk : skipOf s d.bases d.skip = skipOf s' d.bases d.skip := by unfold skipOf; rw [h1]
        have hb : s.bound d.bases = s'.bound d.bases := by unfold State.bound; rw [h1]
        refine both ?_ ?_ rfl
        all_goals
          simp only [step, hb]
          split
          · simp only [Registry.define, hm, hk, h1, h2]
            cases d.typ with
            | none => first | rfl | exact h2
            | some typ =>
              have ht : taken s typ (mroOf s' d.bases) = taken s' typ (mroOf s' d.bases) := by unfold taken; rw [h2]
              simp only [ht]
              cases taken s' typ (mroOf s' d.bases) with
              | true => assumption
              | false =>
                rw [if_neg (by simp), if_neg (by simp)]
                all_goals rw [registry_set hs.dicts, registry_set hs'.dicts]
          · assumption
      | foreign bases =>
        have hm : mroOf s bases = mroOf s' bases := by unfold mroOf; rw [h1]
        have hp : s.plain bases = s'.plain bases := by unfold State.plain; rw [h1]
        refine both ?_ ?_ rfl
        all_goals
          simp only [step, hp]
          split
          · simp only [Registry.foreign, hm, h1]
            all_goals exact h2
          · assumption
      | mapping => exact same rfl (mapping_registry hs.dicts) rfl
      | setItem i t c => exact same (modify_spec hg i _).1 (modify_spec hg i _).2.1 rfl
      | delItem i t => exact same (modify_spec hg i _).1 (modify_spec hg i _).2.1 rfl
  exact key es .start .start [] [] inv_start inv_start (by simp [Given]) (by simp [Given]) rfl rfl

/-- and what they are given has the contents of the registry -/
theorem C47_mapping_contents (s : State) : (classMapping s).1.dicts[(classMapping s).2]? = some s.registry := by
  simp [classMapping]

/-- The skip set of a class consists of what the class itself and its ancestors declare. -/
theorem C47_skip (es : List Event) (c : Nat) (k : Cls) (h : (run es).1.classes[c]? = some k) (x : String) :
    x ∈ k.skip.getD [] ↔ ∃ (a : Nat) (ka : Cls), Anc (run es).1.classes a c ∧ (run es).1.classes[a]? = some ka ∧ x ∈ ka.declared := (inv_run es).1.skip c k h x

/-- a hierarchy with a mixin, a class that takes over a type string from its parent, one that tries to take it from a sibling, and a user who overwrites a mapping -/
def story : List Event :=
  [.define ⟨[], none, []⟩, .foreign [], .define ⟨[0, 1], some "a", ["x"]⟩, .mapping, .setItem 0 "a" 0, .define ⟨[2], some "a", ["y"]⟩, .define ⟨[0], some "a", []⟩,
   .define ⟨[0], some "b", []⟩]

example : (run story).1.registry = [("a", 3), ("b", 4)] ∧ (run story).1.classes.map (fun k => k.skip) = [some [], none, some ["x"], some ["x", "y"], some []] ∧
    (run story).1.dicts = [[("a", 3), ("b", 4)], [("a", 0)]] := by decide

example : Claims (run story).1.classes 2 "a" ∧ Claims (run story).1.classes 3 "a" := ⟨⟨_, rfl, rfl⟩, ⟨_, rfl, rfl⟩⟩

end Verif.Registry
