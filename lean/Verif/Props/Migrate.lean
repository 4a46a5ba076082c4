import Verif.Model.Migrate
import Verif.Props.Strings
/-!
# C73: renamed symbols of enumerations
-/

namespace Verif.Migrate
open Verif.Py Verif.Strings

variable {Str : Type} [DecidableEq Str]

/-! ## Specification -/

/-- a text means a member of the declared enumeration: it is its value, or, lower-cased and stripped, its lower-cased value or one of its lower-cased synonyms -/
def Means (o : StrOps Str) (d : Str × Str × List Str) (v : Str) : Prop :=
  v = d.2.1 ∨ o.strip (o.lower v) = o.lower d.2.1 ∨ ∃ s ∈ d.2.2, o.strip (o.lower v) = o.lower s

/-! ## Lemmas -/

theorem created_decls (o : StrOps Str) (decls : List (Str × List Str)) (cls : List (Member Str)) (h : mkEnum o [] decls = .ok cls) :
    cls.map (fun m => (m.value, m.synonyms)) = decls ∧ ∀ m ∈ cls, m.matchSet = o.lower m.value :: m.synonyms.map o.lower := by
  obtain ⟨⟨_, h2⟩, h3⟩ := mkEnum_created o decls [] cls ⟨by simp, by simp⟩ h
  exact ⟨by simpa using h3, h2⟩

theorem mem_zip_map {α β γ : Type} (f : β → γ) (as : List α) (bs : List β) (a : α) (c : γ) (h : as.length = bs.length) :
    (a, c) ∈ as.zip (bs.map f) ↔ ∃ b, (a, b) ∈ as.zip bs ∧ f b = c := by
  induction as generalizing bs with
  | nil => simp
  | cons x as ih =>
    cases bs with
    | nil => simp at h
    | cons y bs =>
      simp only [List.length_cons, Nat.add_right_cancel_iff] at h
      simp only [List.map_cons, List.zip_cons_cons, List.mem_cons, Prod.mk.injEq, ih bs h]
      constructor
      · rintro (⟨rfl, rfl⟩ | ⟨b, hb, rfl⟩)
        · exact ⟨y, .inl ⟨rfl, rfl⟩, rfl⟩
        · exact ⟨b, .inr hb, rfl⟩
      · rintro ⟨b, (⟨rfl, rfl⟩ | hb), rfl⟩
        · exact .inl ⟨rfl, rfl⟩
        · exact .inr ⟨b, hb, rfl⟩

theorem zip_fst_snd {α β : Type} (l : List (α × β)) : (l.map Prod.fst).zip (l.map Prod.snd) = l := by
  induction l with
  | nil => rfl
  | cons x l ih => simp [ih]

theorem map_snd_zip' {α β : Type} (as : List α) (bs : List β) (h : as.length = bs.length) : (as.zip bs).map Prod.snd = bs := by
  induction as generalizing bs with
  | nil => cases bs <;> simp_all
  | cons x as ih =>
    cases bs with
    | nil => simp at h
    | cons y bs => simp at h; simp [ih bs h]

/-- what the class statement makes: the declared symbols with the declared values and synonyms, in order -/
theorem create_members (o : StrOps Str) (decls : List (Str × Str × List Str)) (c : EnumCls Str) (h : create o decls = .ok c) :
    c.metas = [] ∧ c.members.map (fun p => (p.1, p.2.value, p.2.synonyms)) = decls ∧
      (∀ p ∈ c.members, p.2.matchSet = o.lower p.2.value :: p.2.synonyms.map o.lower) ∧
      mkEnum o [] (decls.map Prod.snd) = .ok (c.members.map Prod.snd) := by
  unfold create at h
  cases hm : mkEnum o [] (decls.map Prod.snd) with
  | error e => rw [hm] at h; simp at h
  | ok ms =>
    rw [hm] at h
    simp only [Except.ok.injEq] at h
    subst h
    obtain ⟨h1, h2⟩ := created_decls o _ ms hm
    have hl : decls.length = ms.length := by simpa using (congrArg List.length h1).symm
    refine ⟨rfl, ?_, ?_, ?_⟩
    · have e : ∀ (as : List Str) (bs : List (Member Str)), as.length = bs.length →
          (as.zip bs).map (fun p => (p.1, p.2.value, p.2.synonyms)) = as.zip (bs.map (fun m => (m.value, m.synonyms))) := by
        intro as bs hab
        induction as generalizing bs with
        | nil => simp
        | cons x as ih =>
          cases bs with
          | nil => simp at hab
          | cons y bs => simp at hab; simp [ih bs hab]
      show ((decls.map Prod.fst).zip ms).map _ = decls
      rw [e _ _ (by simpa using hl), h1, zip_fst_snd]
    · rintro ⟨a, b⟩ hp
      exact h2 b (List.of_mem_zip hp).2
    · rw [map_snd_zip' _ _ (by simpa using hl)]

theorem call_ok_iff (o : StrOps Str) (decls : List (Str × Str × List Str)) (c : EnumCls Str) (h : create o decls = .ok c) (metas : List (Str × Str)) (v : Str) :
    ((∃ m, call o { c with metas := metas } v = .ok m) ↔ ∃ d ∈ decls, Means o d v) ∧
    (∀ m, call o { c with metas := metas } v = .ok m → ∃ name, (name, m) ∈ c.members ∧ Means o (name, m.value, m.synonyms) v) ∧
    ((∀ d ∈ decls, ¬ Means o d v) → call o { c with metas := metas } v = .error .valueError) := by
  obtain ⟨-, h1, h2, -⟩ := create_members o decls c h
  have key : ∀ p ∈ c.members, (Means o (p.1, p.2.value, p.2.synonyms) v ↔ p.2.value = v ∨ o.norm v ∈ p.2.matchSet) := by
    intro p hp
    rw [h2 p hp]
    simp only [Means, StrOps.norm, List.mem_cons, List.mem_map]
    constructor
    · rintro (e | e | ⟨s, hs, e⟩)
      · exact .inl e.symm
      · exact .inr (.inl e)
      · exact .inr (.inr ⟨s, hs, e.symm⟩)
    · rintro (e | e | ⟨s, hs, e⟩)
      · exact .inl e.symm
      · exact .inr (.inl e)
      · exact .inr (.inr ⟨s, hs, e.symm⟩)
  have sound : ∀ m, call o { c with metas := metas } v = .ok m → ∃ name, (name, m) ∈ c.members ∧ Means o (name, m.value, m.synonyms) v := by
    intro m hm
    unfold call callEnum findMember at hm
    simp only at hm
    split at hm
    · rename_i m' e
      simp only [Except.ok.injEq] at hm
      subst hm
      obtain ⟨p, hp, rfl⟩ := List.mem_map.1 (List.mem_of_find?_eq_some e)
      exact ⟨p.1, hp, (key p hp).2 (.inl (by simpa using List.find?_some e))⟩
    · split at hm
      · rename_i m' e
        simp only [Except.ok.injEq] at hm
        subst hm
        obtain ⟨p, hp, rfl⟩ := List.mem_map.1 (List.mem_of_find?_eq_some e)
        exact ⟨p.1, hp, (key p hp).2 (.inr (by simpa using List.find?_some e))⟩
      · simp at hm
  have fails : (∀ d ∈ decls, ¬ Means o d v) → call o { c with metas := metas } v = .error .valueError := by
    intro hn
    have hn' : ∀ p ∈ c.members, ¬ (p.2.value = v ∨ o.norm v ∈ p.2.matchSet) := by
      intro p hp hc
      refine hn (p.1, p.2.value, p.2.synonyms) ?_ ((key p hp).2 hc)
      rw [← h1]
      exact List.mem_map.2 ⟨p, hp, rfl⟩
    unfold call callEnum findMember
    have e1 : (c.members.map Prod.snd).find? (fun x => decide (x.value = v)) = none := by
      rw [List.find?_eq_none]
      intro x hx
      obtain ⟨p, hp, rfl⟩ := List.mem_map.1 hx
      have := hn' p hp
      simp_all
    have e2 : (c.members.map Prod.snd).find? (fun x => decide (o.norm v ∈ x.matchSet)) = none := by
      rw [List.find?_eq_none]
      intro x hx
      obtain ⟨p, hp, rfl⟩ := List.mem_map.1 hx
      have := hn' p hp
      simp_all
    simp only [e1, e2]
  refine ⟨⟨?_, ?_⟩, sound, fails⟩
  · rintro ⟨m, hm⟩
    obtain ⟨name, hp, hM⟩ := sound m hm
    refine ⟨(name, m.value, m.synonyms), ?_, hM⟩
    rw [← h1]
    exact List.mem_map.2 ⟨_, hp, rfl⟩
  · rintro ⟨d, hd, hM⟩
    rw [← h1] at hd
    obtain ⟨p, hp, rfl⟩ := List.mem_map.1 hd
    have hk := (key p hp).1 hM
    unfold call callEnum
    simp only
    split
    · exact ⟨_, rfl⟩
    · rename_i e1
      rw [List.find?_eq_none] at e1
      have h3 := e1 p.2 (List.mem_map.2 ⟨p, hp, rfl⟩)
      simp only [decide_eq_true_eq] at h3
      have h4 := hk.resolve_left h3
      split
      · exact ⟨_, rfl⟩
      · rename_i e2
        unfold findMember at e2
        rw [List.find?_eq_none] at e2
        exact absurd h4 (by simpa using e2 p.2 (List.mem_map.2 ⟨p, hp, rfl⟩))

theorem call_metas (o : StrOps Str) (c : EnumCls Str) (metas : List (Str × Str)) (v : Str) : call o { c with metas := metas } v = call o c v := rfl

/-- the class after decorators: only the metaclasses are new, those whose target was found, last first -/
theorem migrateAll_eq (o : StrOps Str) (ops : List (Str × Str)) (c : EnumCls Str) :
    migrateAll o c ops = { c with metas := (ops.filter (fun p => (call o c p.2).isOk)).reverse ++ c.metas } := by
  induction ops generalizing c with
  | nil => simp [migrateAll]
  | cons p ops ih =>
    obtain ⟨old, new⟩ := p
    unfold migrateAll migrate
    cases hc : call o c new with
    | error e =>
      simp only [ih, List.filter_cons, hc, Except.isOk, Except.toBool]
      simp
    | ok m =>
      simp only [ih, List.filter_cons, hc, Except.isOk, Except.toBool, call_metas]
      simp

theorem isOk_iff {ε α : Type} (x : Except ε α) : x.isOk = true ↔ ∃ a, x = .ok a := by
  cases x <;> simp [Except.isOk, Except.toBool]

/-- a list whose first entry under a name is known -/
theorem itemIn_first (o : StrOps Str) (c : EnumCls Str) (name new : Str) (l1 l2 : List (Str × Str)) (h : ∀ p ∈ l1, p.1 ≠ name)
    (m : Member Str) (hm : call o c new = .ok m) : itemIn o c name (l1 ++ (name, new) :: l2) = (1, .ok m) := by
  induction l1 with
  | nil => simp [itemIn, hm]
  | cons p l1 ih =>
    obtain ⟨a, b⟩ := p
    simp only [List.cons_append, itemIn]
    rw [if_neg (fun e => h (a, b) (by simp) e.symm)]
    exact ih (fun p hp => h p (by simp [hp]))

theorem itemIn_none (o : StrOps Str) (c : EnumCls Str) (name : Str) (l : List (Str × Str)) (h : ∀ p ∈ l, p.1 ≠ name) :
    itemIn o c name l = itemIn o c name [] := by
  induction l with
  | nil => rfl
  | cons p l ih =>
    obtain ⟨a, b⟩ := p
    simp only [itemIn]
    rw [if_neg (fun e => h (a, b) (by simp) e.symm)]
    simpa [itemIn] using ih (fun p hp => h p (by simp [hp]))

theorem itemIn_metas (o : StrOps Str) (c : EnumCls Str) (metas : List (Str × Str)) (name : Str) (l : List (Str × Str)) :
    itemIn o { c with metas := metas } name l = itemIn o c name l := by
  induction l with
  | nil => rfl
  | cons p l ih => obtain ⟨a, b⟩ := p; simp only [itemIn, ih]; rfl

theorem getAttr_first (o : StrOps Str) (c : EnumCls Str) (name new : Str) (l1 l2 : List (Str × Str)) (h : ∀ p ∈ l1, p.1 ≠ name)
    (hm : c.metas = l1 ++ (name, new) :: l2) : getAttr o c name = (1, call o c new) := by
  unfold getAttr
  have : c.metas.find? (fun p => decide (p.1 = name)) = some (name, new) := by
    rw [hm, List.find?_eq_some_iff_append]
    exact ⟨by simp, l1, l2, rfl, by simpa using h⟩
  rw [this]

/-! ## C73 -/

/-- C73. Applying the decorator succeeds exactly if the new value means some member of the class (by its value, or by value or synonym without regard to case and
surrounding blanks); otherwise it raises ValueError and the class is as it was. In either case the members, and what `cls(value)` gives, stay as they were. -/
theorem C73_applies (o : StrOps Str) (decls : List (Str × Str × List Str)) (c : EnumCls Str) (h : create o decls = .ok c) (ops : List (Str × Str)) (old new v : Str) :
    ((migrate o (migrateAll o c ops) old new).2 = none ↔ ∃ d ∈ decls, Means o d new) ∧
    ((∀ d ∈ decls, ¬ Means o d new) → migrate o (migrateAll o c ops) old new = (migrateAll o c ops, some .valueError)) ∧
    (migrateAll o c ops).members = c.members ∧ call o (migrateAll o c ops) v = call o c v := by
  have hc := fun ms => call_ok_iff o decls c h ms new
  rw [migrateAll_eq]
  refine ⟨?_, ?_, rfl, rfl⟩
  · rw [← (hc _).1]
    unfold migrate
    split
    · rename_i e he
      rw [he]; simp
    · rename_i m he
      rw [he]; simp
  · intro hn
    unfold migrate
    rw [(hc _).2.2 hn]

/-- C73. After any sequence of decorators, applied successfully or not: an old symbol, looked up by `cls[name]` or `cls.name`, gives what `cls(new_value)` gives for the
last decorator that was applied to it successfully, with exactly one warning. -/
theorem C73_old_symbol (o : StrOps Str) (decls : List (Str × Str × List Str)) (c : EnumCls Str) (h : create o decls = .ok c)
    (before after : List (Str × Str)) (name new : Str) (hknown : ∃ d ∈ decls, Means o d new)
    (hlast : ∀ p ∈ after, p.1 = name → ∀ d ∈ decls, ¬ Means o d p.2) :
    ∃ symbol m, (symbol, m) ∈ c.members ∧ Means o (symbol, m.value, m.synonyms) new ∧ call o c new = .ok m ∧
      getItem o (migrateAll o c (before ++ (name, new) :: after)) name = (1, .ok m) ∧
      getAttr o (migrateAll o c (before ++ (name, new) :: after)) name = (1, .ok m) := by
  obtain ⟨m, hm⟩ := (call_ok_iff o decls c h c.metas new).1.2 hknown
  obtain ⟨symbol, hs, hM⟩ := (call_ok_iff o decls c h c.metas new).2.1 m hm
  have hm' : call o c new = .ok m := hm
  obtain ⟨h0, -, -, -⟩ := create_members o decls c h
  refine ⟨symbol, m, hs, hM, hm, ?_⟩
  rw [migrateAll_eq]
  have e : ((before ++ (name, new) :: after).filter (fun p => (call o c p.2).isOk)).reverse ++ c.metas =
      (after.filter (fun p => (call o c p.2).isOk)).reverse ++ (name, new) :: (before.filter (fun p => (call o c p.2).isOk)).reverse := by
    rw [h0, List.append_nil, List.filter_append, List.filter_cons]
    rw [if_pos (by rw [isOk_iff]; exact ⟨m, hm'⟩)]
    simp
  have hl : ∀ p ∈ (after.filter (fun p => (call o c p.2).isOk)).reverse, p.1 ≠ name := by
    intro p hp hpn
    rw [List.mem_reverse, List.mem_filter, isOk_iff] at hp
    obtain ⟨d, hd, hMd⟩ := (call_ok_iff o decls c h c.metas p.2).1.1 hp.2
    exact hlast p hp.1 hpn d hd hMd
  constructor
  · unfold getItem
    rw [itemIn_metas]
    simp only [e]
    exact itemIn_first o c name new _ _ hl m hm'
  · rw [getAttr_first o _ name new _ _ hl e]
    exact congrArg _ hm'

/-- C73. Every other symbol is looked up as before: without a warning, `cls[name]` and `cls.name` give the member declared under it, or raise KeyError and AttributeError. -/
theorem C73_other_symbols (o : StrOps Str) (decls : List (Str × Str × List Str)) (c : EnumCls Str) (h : create o decls = .ok c) (hnames : (decls.map Prod.fst).Nodup)
    (ops : List (Str × Str)) (name : Str) (hother : ∀ p ∈ ops, p.1 = name → ∀ d ∈ decls, ¬ Means o d p.2) :
    (∀ d ∈ decls, d.1 = name → ∃ m, m.value = d.2.1 ∧ m.synonyms = d.2.2 ∧ (name, m) ∈ c.members ∧
      getItem o (migrateAll o c ops) name = (0, .ok m) ∧ getAttr o (migrateAll o c ops) name = (0, .ok m)) ∧
    ((∀ d ∈ decls, d.1 ≠ name) →
      getItem o (migrateAll o c ops) name = (0, .error .keyError) ∧ getAttr o (migrateAll o c ops) name = (0, .error .attributeError)) := by
  obtain ⟨h0, h1, -, -⟩ := create_members o decls c h
  have hl : ∀ p ∈ (ops.filter (fun p => (call o c p.2).isOk)).reverse ++ c.metas, p.1 ≠ name := by
    intro p hp hpn
    rw [h0, List.append_nil, List.mem_reverse, List.mem_filter, isOk_iff] at hp
    obtain ⟨d, hd, hMd⟩ := (call_ok_iff o decls c h c.metas p.2).1.1 hp.2
    exact hother p hp.1 hpn d hd hMd
  have hi : getItem o (migrateAll o c ops) name = itemIn o c name [] := by
    unfold getItem
    rw [migrateAll_eq, itemIn_metas]
    exact itemIn_none o c name _ hl
  have ha : getAttr o (migrateAll o c ops) name = (0, match symbol c name with | some m => .ok m | none => .error .attributeError) := by
    unfold getAttr
    rw [migrateAll_eq]
    have : ((ops.filter (fun p => (call o c p.2).isOk)).reverse ++ c.metas).find? (fun p => decide (p.1 = name)) = none := by
      rw [List.find?_eq_none]
      intro p hp
      simpa using hl p hp
    simp only [this]
    rfl
  rw [hi, ha]
  simp only [itemIn]
  constructor
  · intro d hd hdn
    rw [← h1] at hd
    obtain ⟨p, hp, rfl⟩ := List.mem_map.1 hd
    obtain ⟨a, m⟩ := p
    simp only at hdn
    subst hdn
    have hnd : (c.members.map Prod.fst).Nodup := by
      rw [← h1, List.map_map] at hnames
      exact hnames
    have : symbol c a = some m := by
      unfold symbol
      cases hf : c.members.find? (fun p => decide (p.1 = a)) with
      | none =>
        rw [List.find?_eq_none] at hf
        exact absurd (by simp) (hf (a, m) hp)
      | some q =>
        have hq := List.mem_of_find?_eq_some hf
        have hqa : q.1 = a := by simpa using List.find?_some hf
        have : q = (a, m) := by
          have hpw : c.members.Pairwise (fun x y => x.1 ≠ y.1) := List.pairwise_map.1 hnd
          rcases List.mem_iff_getElem.1 hq with ⟨i, hi', rfl⟩
          rcases List.mem_iff_getElem.1 hp with ⟨j, hj', ej⟩
          rw [List.pairwise_iff_getElem] at hpw
          rcases Nat.lt_trichotomy i j with hij | rfl | hij
          · exact absurd (by rw [hqa, ej]) (hpw i j hi' hj' hij)
          · exact ej
          · exact absurd (by rw [hqa, ej]) (hpw j i hj' hi' hij)
        rw [this]; rfl
    rw [this]
    exact ⟨m, rfl, rfl, hp, rfl, rfl⟩
  · intro hn
    have : symbol c name = none := by
      unfold symbol
      rw [Option.map_eq_none_iff, List.find?_eq_none]
      intro p hp
      have := hn (p.1, p.2.value, p.2.synonyms) (by rw [← h1]; exact List.mem_map.2 ⟨p, hp, rfl⟩)
      simpa using this
    rw [this]
    exact ⟨rfl, rfl⟩

/-- C73. The documentation of the decorator allows the new symbol in place of the new value. That is false: a symbol that is not also the value or a synonym makes the
decorator raise ValueError. -/
theorem C73_symbol_counterexample :
    ∃ c, create asciiOps [("RED".toList, "rouge".toList, [])] = .ok c ∧ symbol c "RED".toList ≠ none ∧
      (migrate asciiOps c "CRIMSON".toList "RED".toList).2 = some .valueError :=
  ⟨⟨[("RED".toList, ⟨"rouge".toList, [], ["rouge".toList]⟩)], []⟩, by decide +kernel, by decide +kernel, by decide +kernel⟩

/-! ## Non-vacuity -/

/-- two decorators on one class, the second renaming the same symbol again, then one that raises -/
example : ∃ c, create asciiOps [("RED".toList, "rouge".toList, ["red".toList]), ("BLUE".toList, "bleu".toList, [])] = .ok c ∧
    getItem asciiOps (migrateAll asciiOps c [("CRIMSON".toList, "bleu".toList), ("CRIMSON".toList, " Red ".toList), ("CRIMSON".toList, "green".toList)]) "CRIMSON".toList =
      (1, .ok ⟨"rouge".toList, ["red".toList], ["rouge".toList, "red".toList]⟩) ∧
    getAttr asciiOps (migrateAll asciiOps c [("CRIMSON".toList, "bleu".toList)]) "BLUE".toList = (0, .ok ⟨"bleu".toList, [], ["bleu".toList]⟩) :=
  ⟨⟨[("RED".toList, ⟨"rouge".toList, ["red".toList], ["rouge".toList, "red".toList]⟩), ("BLUE".toList, ⟨"bleu".toList, [], ["bleu".toList]⟩)], []⟩,
    by decide +kernel, by decide +kernel, by decide +kernel⟩

/-- the hypotheses of `C73_old_symbol` are met -/
example : (∃ d ∈ [("RED".toList, "rouge".toList, ["red".toList])], Means asciiOps d " Red ".toList) ∧
    ∀ d ∈ [("RED".toList, "rouge".toList, ["red".toList])], ¬ Means asciiOps d "green".toList := by
  refine ⟨⟨_, List.mem_singleton.2 rfl, .inr (.inr ⟨_, List.mem_singleton.2 rfl, by decide +kernel⟩)⟩, ?_⟩
  intro d hd
  rw [List.mem_singleton.1 hd]
  rintro (h | h | ⟨s, hs, h⟩)
  · revert h; decide +kernel
  · revert h; decide +kernel
  · rw [List.mem_singleton.1 hs] at h; revert h; decide +kernel

end Verif.Migrate
