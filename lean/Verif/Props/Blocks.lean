import Verif.Model.Mangle
/-!
# C53: scaling blocks
-/

set_option linter.unusedSimpArgs false

namespace Verif.Mangle
open Verif.Py

/-! ## Specification -/

/-- `**` or `^` -/
def IsPow (t : Token) : Prop := t.text = ['*', '*'] ∨ t.text = ['^']

/-- an operator that separates factors: `*`, `/`, `//`, `(`, `)` -/
def IsSep (t : Token) : Prop :=
  t.typ = .op ∧ (t.text = ['*'] ∨ t.text = ['/'] ∨ t.text = ['/', '/'] ∨ t.text = ['('] ∨ t.text = [')'])

instance (t : Token) : Decidable (IsPow t) := by unfold IsPow; infer_instance
instance (t : Token) : Decidable (IsSep t) := by unfold IsSep; infer_instance

/-- an operator of the grammar -/
def Known (t : Token) : Prop :=
  t.typ = .op → t.text ∈ [['.'], ['+'], ['-'], ['*'], ['/'], ['/', '/'], ['^'], ['*', '*'], ['('], [')']]

instance (t : Token) : Decidable (Known t) := by unfold Known; infer_instance

/-- only operators are spelled like operators -/
def Sane (t : Token) : Prop := (IsPow t ∨ t.text = ['('] ∨ t.text = [')']) → t.typ = .op

/-- what a block keeps: everything but separators and white space, line ends, ... -/
def Keep (t : Token) : Prop := t.typ ≠ .other ∧ ¬ IsSep t

instance (t : Token) : Decidable (Keep t) := by unfold Keep; infer_instance

theorem isPow_iff (t : Token) : isPow t.text = true ↔ IsPow t := by
  simp [isPow, IsPow]

theorem allowedOp_iff (t : Token) (h : t.typ = .op) : allowedOp t.text = true ↔ Known t := by
  simp [allowedOp, Known, h, or_assoc]

theorem keepsBlock_iff (t : Token) (h : t.typ = .op) (hk : Known t) : keepsBlock t.text = true ↔ ¬ IsSep t := by
  have := hk h
  simp only [List.mem_cons, List.not_mem_nil, or_false] at this
  rcases this with h1 | h1 | h1 | h1 | h1 | h1 | h1 | h1 | h1 | h1 <;> simp [keepsBlock, isPow, IsSep, h, h1]

/-! ## Nothing is lost -/

theorem blockStep_flat {s s' : BlockSt} {t : Token} (h : blockStep s t = .ok s') :
    Known t ∧ ((s'.done ++ [s'.cur]).flatten = (s.done ++ [s.cur]).flatten ++ [t] ∧ t.typ ≠ .other ∨
      (s'.done ++ [s'.cur]).flatten = (s.done ++ [s.cur]).flatten ∧ ¬ Keep t) := by
  unfold blockStep handle at h
  cases ht : t.typ with
  | op =>
    simp only [ht] at h
    by_cases ha : allowedOp t.text = true
    · have hk := (allowedOp_iff t ht).mp ha
      simp only [ha, if_true] at h
      refine ⟨hk, ?_⟩
      by_cases hc : (s.stack.any (fun t => isPow t.text) || keepsBlock t.text) = true
      · simp only [hc, if_true, Except.ok.injEq] at h
        subst h
        exact Or.inl ⟨by simp, by simp⟩
      · simp only [Bool.not_eq_true] at hc
        simp only [hc, Bool.false_eq_true, if_false, Except.ok.injEq] at h
        subst h
        refine Or.inr ⟨by simp, ?_⟩
        intro hkeep
        simp only [Bool.or_eq_false_iff] at hc
        have := (keepsBlock_iff t ht hk).mpr hkeep.2
        rw [hc.2] at this
        cases this
    · simp only [Bool.not_eq_true] at ha
      simp only [ha, Bool.false_eq_true, if_false] at h
      cases h
  | name =>
    simp only [ht] at h
    refine ⟨(fun e => by rw [ht] at e; cases e), Or.inl ⟨?_, by simp⟩⟩
    by_cases hc : (s.stack.any (fun t => isPow t.text) || !endsName s.cur) = true
    · simp only [hc, if_true, Except.ok.injEq] at h
      subst h; simp
    · simp only [Bool.not_eq_true] at hc
      simp only [hc, Bool.false_eq_true, if_false, Except.ok.injEq] at h
      subst h; simp
  | number =>
    simp only [ht, Except.ok.injEq] at h
    subst h
    exact ⟨(fun e => by rw [ht] at e; cases e), Or.inl ⟨by simp, by simp⟩⟩
  | error =>
    simp only [ht, Except.ok.injEq] at h
    subst h
    exact ⟨(fun e => by rw [ht] at e; cases e), Or.inl ⟨by simp, by simp⟩⟩
  | other =>
    simp only [ht, Except.ok.injEq] at h
    subst h
    exact ⟨(fun e => by rw [ht] at e; cases e), Or.inr ⟨rfl, fun hk => hk.1 ht⟩⟩

theorem blockStep_total (s : BlockSt) (t : Token) (h : Known t) : ∃ s', blockStep s t = .ok s' := by
  unfold blockStep handle
  cases ht : t.typ with
  | op =>
    simp only [(allowedOp_iff t ht).mpr h, if_true]
    by_cases hc : (s.stack.any (fun t => isPow t.text) || keepsBlock t.text) = true
    · simp only [hc, if_true]; exact ⟨_, rfl⟩
    · simp only [Bool.not_eq_true] at hc
      simp only [hc, Bool.false_eq_true, if_false]; exact ⟨_, rfl⟩
  | name =>
    by_cases hc : (s.stack.any (fun t => isPow t.text) || !endsName s.cur) = true
    · simp only [hc, if_true]; exact ⟨_, rfl⟩
    · simp only [Bool.not_eq_true] at hc
      simp only [hc, Bool.false_eq_true, if_false]; exact ⟨_, rfl⟩
  | number => exact ⟨_, rfl⟩
  | error => exact ⟨_, rfl⟩
  | other => exact ⟨_, rfl⟩

theorem blockStep_unknown (s : BlockSt) (t : Token) (h : ¬ Known t) : blockStep s t = .error .undefinedUnit := by
  have ht : t.typ = .op := by
    by_cases ht : t.typ = .op
    · exact ht
    · exact absurd (fun e => absurd e ht) h
  have : allowedOp t.text = false := by
    cases ha : allowedOp t.text with
    | false => rfl
    | true => exact absurd ((allowedOp_iff t ht).mp ha) h
  unfold blockStep handle
  simp [ht, this]

theorem blockLoop_flat {s s' : BlockSt} {ts : List Token} (h : blockLoop s ts = .ok s') :
    ∃ kept, (s'.done ++ [s'.cur]).flatten = (s.done ++ [s.cur]).flatten ++ kept ∧ List.Sublist kept ts ∧
      kept.filter (fun t => decide (Keep t)) = ts.filter (fun t => decide (Keep t)) ∧ (∀ t ∈ kept, t.typ ≠ .other) := by
  induction ts generalizing s with
  | nil =>
    simp only [blockLoop, Except.ok.injEq] at h
    subst h
    exact ⟨[], by simp, List.Sublist.refl _, rfl, by simp⟩
  | cons t ts ih =>
    simp only [blockLoop] at h
    cases hs : blockStep s t with
    | error e => simp [hs] at h
    | ok s1 =>
      simp only [hs] at h
      obtain ⟨kept, h1, h2, h3, h4⟩ := ih h
      obtain ⟨-, ⟨e, hne⟩ | ⟨e, hk⟩⟩ := blockStep_flat hs
      · refine ⟨t :: kept, by rw [h1, e]; simp, h2.cons_cons t, ?_, ?_⟩
        · simp only [List.filter_cons, h3]
        · intro x hx
          rcases List.mem_cons.mp hx with rfl | hx
          · exact hne
          · exact h4 x hx
      · refine ⟨kept, by rw [h1, e], h2.cons t, ?_, h4⟩
        rw [h3, List.filter_cons, if_neg (by simpa using hk)]

/-- C53, blocks lose separators only: read one after the other they list tokens of the expression, in order and once each, among
them every name, number and remaining operator -/
theorem C53_nothing_lost (ts : List Token) (bs : List (List Token)) (h : findBlocks ts = .ok bs) :
    List.Sublist bs.flatten ts ∧
    bs.flatten.filter (fun t => decide (Keep t)) = ts.filter (fun t => decide (Keep t)) ∧
    bs.flatten.filter (fun t => decide (t.typ = .number)) = ts.filter (fun t => decide (t.typ = .number)) := by
  unfold findBlocks at h
  cases hl : blockLoop { done := [], cur := [], stack := [] } ts with
  | error e => simp [hl] at h
  | ok s =>
    simp only [hl, Except.ok.injEq] at h
    obtain ⟨kept, h1, h2, h3, -⟩ := blockLoop_flat hl
    rw [← h, h1]
    simp only [List.nil_append, List.flatten_cons, List.flatten_nil, List.append_nil]
    refine ⟨h2, h3, ?_⟩
    have hcomp : ∀ l : List Token, l.filter (fun t => decide (t.typ = .number)) =
        (l.filter (fun t => decide (Keep t))).filter (fun t => decide (t.typ = .number)) := by
      intro l
      rw [List.filter_filter]
      apply List.filter_congr
      intro t _
      by_cases hn : t.typ = .number
      · simp [hn, Keep, IsSep]
      · simp [hn]
    rw [hcomp kept, hcomp ts, h3]

/-- C53, an expression is refused with the undefined-unit error exactly if some operator is not one of the grammar -/
theorem C53_unknown_operator (ts : List Token) : findBlocks ts = .error .undefinedUnit ↔ ∃ t ∈ ts, ¬ Known t := by
  have key : ∀ (ts : List Token) (s : BlockSt), ((∃ t ∈ ts, ¬ Known t) → blockLoop s ts = .error .undefinedUnit) ∧
      ((∀ t ∈ ts, Known t) → ∃ s', blockLoop s ts = .ok s') := by
    intro ts
    induction ts with
    | nil => intro s; exact ⟨fun ⟨t, ht, _⟩ => by simp at ht, fun _ => ⟨s, rfl⟩⟩
    | cons t ts ih =>
      intro s
      by_cases hk : Known t
      · obtain ⟨s', hs⟩ := blockStep_total s t hk
        simp only [blockLoop, hs]
        refine ⟨?_, fun h => (ih s').2 (fun x hx => h x (by simp [hx]))⟩
        rintro ⟨x, hx, hnk⟩
        rcases List.mem_cons.mp hx with rfl | hx
        · exact absurd hk hnk
        · exact (ih s').1 ⟨x, hx, hnk⟩
      · simp only [blockLoop, blockStep_unknown s t hk]
        exact ⟨fun _ => trivial, fun h => absurd (h t (by simp)) hk⟩
  unfold findBlocks
  constructor
  · intro h
    by_cases hex : ∃ t ∈ ts, ¬ Known t
    · exact hex
    · have : ∀ t ∈ ts, Known t := fun t ht => by
        by_cases hk : Known t
        · exact hk
        · exact absurd ⟨t, ht, hk⟩ hex
      obtain ⟨s', hs⟩ := (key ts _).2 this
      rw [hs] at h
      cases h
  · intro h
    rw [(key ts ⟨[], [], []⟩).1 h]

/-! ## Where the blocks end -/

/-- a number or a name -/
def IsAtom (t : Token) : Prop := t.typ = .number ∨ t.typ = .name

/-- an operator token with this text -/
def IsOp (t : Token) (s : List Char) : Prop := t.typ = .op ∧ t.text = s

/-- parentheses match -/
inductive Balanced : List Token → Prop where
  | nil : Balanced []
  | tok (t : Token) (ts : List Token) : Known t → ¬ IsOp t ['('] → ¬ IsOp t [')'] → Balanced ts → Balanced (t :: ts)
  | group (l r : Token) (b ts : List Token) : IsOp l ['('] → IsOp r [')'] → Balanced b → Balanced ts → Balanced (l :: (b ++ r :: ts))

/-- an expression, token by token, with exponents taken together with their operator -/
inductive Item where
  | tok (t : Token)
  | power (p : Token) (exponent : List Token)

/-- exponents: an atom, a signed atom, a group in parentheses -/
inductive Exponent : List Token → Prop where
  | atom (t : Token) : IsAtom t → Exponent [t]
  | signed (s t : Token) : (IsOp s ['-'] ∨ IsOp s ['+']) → IsAtom t → Exponent [s, t]
  | group (l r : Token) (b : List Token) : IsOp l ['('] → IsOp r [')'] → Balanced b → Exponent (l :: (b ++ [r]))

def Item.Valid : Item → Prop
  | .tok t => Known t ∧ ¬ IsPow t
  | .power p e => t_op p ∧ IsPow p ∧ Exponent e
where t_op (p : Token) : Prop := p.typ = .op

def Item.tokens : Item → List Token
  | .tok t => [t]
  | .power p e => p :: e

/-- without line ends and the like -/
def solid (ts : List Token) : List Token := ts.filter (fun t => decide (t.typ ≠ .other))

/-- the first token is a name -/
def beginsName : List Token → Bool
  | t :: _ => t.typ == .name
  | [] => false

/-- continue a block, unless two names would meet -/
def join (cur : List Token) : List (List Token) → List (List Token)
  | b :: bs => if endsName cur && beginsName b then cur :: b :: bs else (cur ++ b) :: bs
  | [] => [cur]

/-- the blocks: separators outside exponents end a block, and so does a name followed by a name -/
def chunks : List Item → List (List Token)
  | [] => [[]]
  | .tok t :: is => if IsSep t then [] :: chunks is else join (solid [t]) (chunks is)
  | .power p e :: is => join (solid (p :: e)) (chunks is)

theorem chunks_ne (is : List Item) : chunks is ≠ [] := by
  cases is with
  | nil => simp [chunks]
  | cons i is =>
    have hj : ∀ c bs, join c bs ≠ [] := by
      intro c bs
      cases bs with
      | nil => simp [join]
      | cons b bs => simp only [join]; split <;> simp
    cases i with
    | tok t =>
      simp only [chunks]
      split
      · simp
      · exact hj _ _
    | power p e => exact hj _ _

theorem blockLoop_append (s : BlockSt) (a b : List Token) :
    blockLoop s (a ++ b) = match blockLoop s a with | .error e => .error e | .ok s' => blockLoop s' b := by
  induction a generalizing s with
  | nil => rfl
  | cons t a ih =>
    simp only [List.cons_append, blockLoop]
    cases blockStep s t with
    | error e => rfl
    | ok s' => exact ih s'

theorem allowed {t : Token} (h : Known t) (ht : t.typ = .op) : allowedOp t.text = true := (allowedOp_iff t ht).mpr h

theorem solid_cons (t : Token) (ts : List Token) : solid (t :: ts) = solid [t] ++ solid ts := by
  unfold solid
  rw [← List.filter_append]; rfl

theorem solid_append (a b : List Token) : solid (a ++ b) = solid a ++ solid b := by
  unfold solid
  rw [← List.filter_append]

/-- inside an exponent every token is kept -/
theorem step_ctx (d : List (List Token)) (cur st : List Token) (t : Token) (hk : Known t)
    (hc : st.any (fun t => isPow t.text) = true) :
    blockStep ⟨d, cur, st⟩ t = .ok ⟨d, cur ++ solid [t], popPow (if t.typ = .op then opStack t st else st)⟩ := by
  unfold blockStep handle
  simp only [hc, Bool.true_or, if_true]
  cases ht : t.typ with
  | op => simp [allowed hk ht, solid, ht]
  | name => simp [solid, ht]
  | number => simp [solid, ht]
  | error => simp [solid, ht]
  | other => simp [solid, ht]

/-- all tokens are power operators -/
def AllPow (l : List Token) : Prop := ∀ t ∈ l, isPow t.text = true

theorem popPow_paren (P R : List Token) (l : Token) (hl : IsOp l ['(']) (hP : AllPow P) :
    ∃ P', popPow (P ++ l :: R) = P' ++ l :: R ∧ AllPow P' := by
  cases P with
  | nil =>
    refine ⟨[], ?_, hP⟩
    have : isPow l.text = false := by rw [hl.2]; decide
    simp [popPow, this]
  | cons p P =>
    have hp := hP p (by simp)
    exact ⟨P, by simp [popPow, hp], fun t ht => hP t (by simp [ht])⟩

theorem popParen_paren (P R : List Token) (l : Token) (hl : IsOp l ['(']) (hP : AllPow P) : popParen (P ++ l :: R) = R := by
  induction P with
  | nil => simp [popParen, hl.2]
  | cons p P ih =>
    have hp := hP p (by simp)
    have : p.text ≠ ['('] := by intro e; rw [e] at hp; revert hp; decide
    simp only [List.cons_append, popParen, if_neg this]
    exact ih (fun t ht => hP t (by simp [ht]))

theorem known_paren {t : Token} (h : IsOp t ['('] ∨ IsOp t [')']) : Known t := by
  intro _
  rcases h with h | h <;> rw [h.2] <;> decide

theorem loop_balanced {b : List Token} (hb : Balanced b) : ∀ (d : List (List Token)) (cur P R : List Token) (l : Token),
    IsOp l ['('] → AllPow P → R.any (fun t => isPow t.text) = true →
    ∃ P', AllPow P' ∧ blockLoop ⟨d, cur, P ++ l :: R⟩ b = .ok ⟨d, cur ++ solid b, P' ++ l :: R⟩ := by
  induction hb with
  | nil => intro d cur P R l hl hP hR; exact ⟨P, hP, by simp [blockLoop, solid]⟩
  | tok t ts hk h1 h2 _ ih =>
    intro d cur P R l hl hP hR
    have hc : (P ++ l :: R).any (fun t => isPow t.text) = true := by
      rw [List.any_append, List.any_cons, hR]; simp
    have hst : ∃ P', popPow (if t.typ = .op then opStack t (P ++ l :: R) else (P ++ l :: R)) = P' ++ l :: R ∧ AllPow P' := by
      by_cases ht : t.typ = .op
      · have e1 : t.text ≠ ['('] := fun e => h1 ⟨ht, e⟩
        have e2 : t.text ≠ [')'] := fun e => h2 ⟨ht, e⟩
        simp only [ht, if_true, opStack, if_neg e1, if_neg e2]
        by_cases hp : isPow t.text = true
        · simp only [hp, if_true]
          obtain ⟨P', h3, h4⟩ := popPow_paren (t :: t :: P) R l hl (by
            intro x hx
            rcases List.mem_cons.mp hx with rfl | hx
            · exact hp
            · rcases List.mem_cons.mp hx with rfl | hx
              · exact hp
              · exact hP x hx)
          exact ⟨P', h3, h4⟩
        · simp only [hp, Bool.false_eq_true, if_false]
          exact popPow_paren P R l hl hP
      · simp only [if_neg ht]
        exact popPow_paren P R l hl hP
    obtain ⟨P1, hP1, hA1⟩ := hst
    obtain ⟨P2, hA2, hl2⟩ := ih d (cur ++ solid [t]) P1 R l hl hA1 hR
    refine ⟨P2, hA2, ?_⟩
    simp only [blockLoop, step_ctx d cur _ t hk hc, hP1, hl2]
    rw [solid_cons t ts, List.append_assoc]
  | group l' r' b ts hl' hr' _ _ ihb iht =>
    intro d cur P R l hl hP hR
    have hc : (P ++ l :: R).any (fun t => isPow t.text) = true := by
      rw [List.any_append, List.any_cons, hR]; simp
    have hs1 : blockStep ⟨d, cur, P ++ l :: R⟩ l' = .ok ⟨d, cur ++ solid [l'], [] ++ l' :: (P ++ l :: R)⟩ := by
      rw [step_ctx d cur _ l' (known_paren (Or.inl hl')) hc]
      have : isPow l'.text = false := by rw [hl'.2]; decide
      simp [hl'.1, opStack, hl'.2, popPow, isPow]
    obtain ⟨P1, hA1, hl1⟩ := ihb d (cur ++ solid [l']) [] (P ++ l :: R) l' hl' (by intro x hx; simp at hx) hc
    have hc2 : (P1 ++ l' :: (P ++ l :: R)).any (fun t => isPow t.text) = true := by
      rw [List.any_append, List.any_cons, hc]; simp
    obtain ⟨P2, hp2, hA2⟩ := popPow_paren P R l hl hP
    have hs2 : blockStep ⟨d, cur ++ solid [l'] ++ solid b, P1 ++ l' :: (P ++ l :: R)⟩ r' =
        .ok ⟨d, cur ++ solid [l'] ++ solid b ++ solid [r'], P2 ++ l :: R⟩ := by
      rw [step_ctx d _ _ r' (known_paren (Or.inr hr')) hc2]
      have e1 : ([')'] : List Char) ≠ ['('] := by decide
      simp only [hr'.1, if_true, opStack, hr'.2, if_neg e1, popParen_paren P1 _ l' hl' hA1, hp2]
    obtain ⟨P3, hA3, hl3⟩ := iht d (cur ++ solid [l'] ++ solid b ++ solid [r']) P2 R l hl hA2 hR
    refine ⟨P3, hA3, ?_⟩
    simp only [blockLoop, hs1]
    rw [blockLoop_append, hl1]
    simp only [blockLoop, hs2, hl3]
    rw [solid_cons l' (b ++ r' :: ts), solid_append, solid_cons r' ts]
    simp [List.append_assoc]

/-- no power operator on the stack -/
def NoPow (st : List Token) : Prop := st.any (fun t => isPow t.text) = false

theorem popPow_noPow {st : List Token} (h : NoPow st) : popPow st = st := by
  cases st with
  | nil => rfl
  | cons t st =>
    simp only [NoPow, List.any_cons, Bool.or_eq_false_iff] at h
    simp [popPow, h.1]

theorem popParen_noPow {st : List Token} (h : NoPow st) : NoPow (popParen st) := by
  induction st with
  | nil => exact h
  | cons t st ih =>
    simp only [NoPow, List.any_cons, Bool.or_eq_false_iff] at h
    simp only [popParen]
    split
    · exact h.2
    · exact ih h.2

theorem endsName_append (cur l : List Token) (h : l ≠ []) : endsName (cur ++ l) = endsName l := by
  unfold endsName
  rw [List.getLast?_append]
  cases hl : l.getLast? with
  | none => exact absurd (List.getLast?_eq_none_iff.mp hl) h
  | some x => rfl

/-- an exponent is kept as a whole -/
theorem loop_power (p : Token) (e : List Token) (hp : (Item.power p e).Valid) (d : List (List Token)) (cur st : List Token) (hst : NoPow st) :
    blockLoop ⟨d, cur, st⟩ (p :: e) = .ok ⟨d, cur ++ solid (p :: e), st⟩ := by
  obtain ⟨ho, hpw, he⟩ := hp
  have ho : p.typ = .op := ho
  have hpb := (isPow_iff p).mpr hpw
  have hkp : Known p := by
    intro _
    rcases hpw with h | h <;> rw [h] <;> decide
  have hnp : p.text ≠ ['('] ∧ p.text ≠ [')'] := by
    rcases hpw with h | h <;> rw [h] <;> decide
  have hkeep : keepsBlock p.text = true := by simp [keepsBlock, hpb]
  have hs : blockStep ⟨d, cur, st⟩ p = .ok ⟨d, cur ++ [p], p :: st⟩ := by
    unfold blockStep handle
    simp [ho, allowed hkp ho, hkeep, opStack, hnp.1, hnp.2, hpb, popPow]
  have hctx : (p :: st).any (fun t => isPow t.text) = true := by simp [hpb]
  have hsp : solid [p] = [p] := by simp [solid, ho]
  simp only [blockLoop, hs]
  cases he with
  | atom t ht =>
    have hk : Known t := by intro e; rcases ht with h | h <;> rw [h] at e <;> cases e
    have hno : t.typ ≠ .op := by rcases ht with h | h <;> rw [h] <;> decide
    simp only [blockLoop, step_ctx d _ _ t hk hctx, if_neg hno]
    rw [solid_cons p, hsp]
    simp [popPow, hpb]
  | signed sg t hsg ht =>
    have hk : Known t := by intro e; rcases ht with h | h <;> rw [h] at e <;> cases e
    have hno : t.typ ≠ .op := by rcases ht with h | h <;> rw [h] <;> decide
    have hsop : sg.typ = .op := by rcases hsg with h | h <;> exact h.1
    have hks : Known sg := by intro _; rcases hsg with h | h <;> rw [h.2] <;> decide
    have hstk : opStack sg (p :: st) = p :: st := by
      rcases hsg with h | h <;> simp [opStack, h.2, isPow]
    have hsol : solid [sg] = [sg] := by simp [solid, hsop]
    have h2 : blockStep ⟨d, cur ++ [p] ++ [sg], st⟩ t = .ok ⟨d, cur ++ [p] ++ [sg] ++ [t], st⟩ := by
      have hen : endsName (cur ++ [p] ++ [sg]) = false := by
        rw [endsName_append _ _ (by simp)]
        simp [endsName, hsop]
      unfold blockStep handle
      rcases ht with h | h
      · simp [h, popPow_noPow hst]
      · simp only [h, hen, Bool.not_false, Bool.or_true, if_true, popPow_noPow hst]
    simp only [blockLoop, step_ctx d _ _ sg hks hctx, hsop, if_true, hstk]
    have : popPow (p :: st) = st := by simp [popPow, hpb]
    rw [this, hsol, h2]
    have hsolt : solid [t] = [t] := by
      rcases ht with h | h <;> simp [solid, h]
    rw [solid_cons p, solid_cons sg, hsp, hsol, hsolt]
    simp
  | group l r b hl hr hb =>
    have hs1 : blockStep ⟨d, cur ++ [p], p :: st⟩ l = .ok ⟨d, cur ++ [p] ++ solid [l], [] ++ l :: (p :: st)⟩ := by
      rw [step_ctx d _ _ l (known_paren (Or.inl hl)) hctx]
      have : isPow l.text = false := by rw [hl.2]; decide
      simp [hl.1, opStack, hl.2, popPow, isPow]
    obtain ⟨P1, hA1, hl1⟩ := loop_balanced hb d (cur ++ [p] ++ solid [l]) [] (p :: st) l hl (by intro x hx; simp at hx) hctx
    have hc2 : (P1 ++ l :: (p :: st)).any (fun t => isPow t.text) = true := by
      rw [List.any_append, List.any_cons, hctx]; simp
    have hs2 : blockStep ⟨d, cur ++ [p] ++ solid [l] ++ solid b, P1 ++ l :: (p :: st)⟩ r =
        .ok ⟨d, cur ++ [p] ++ solid [l] ++ solid b ++ solid [r], st⟩ := by
      rw [step_ctx d _ _ r (known_paren (Or.inr hr)) hc2]
      have e1 : ([')'] : List Char) ≠ ['('] := by decide
      have e2 : popPow (p :: st) = st := by simp [popPow, hpb]
      simp only [hr.1, if_true, opStack, hr.2, if_neg e1, popParen_paren P1 _ l hl hA1, e2]
    simp only [blockLoop, hs1]
    rw [blockLoop_append, hl1]
    simp only [blockLoop, hs2]
    rw [solid_cons p, solid_cons l (b ++ [r]), solid_append, hsp]
    simp [List.append_assoc]

theorem beginsName_chunks_power (p : Token) (e : List Token) (ho : p.typ = .op) (is : List Item) :
    ∀ b bs, join (solid (p :: e)) (chunks is) = b :: bs → beginsName b = false := by
  intro b bs h
  rw [solid_cons] at h
  have hsp : solid [p] = [p] := by simp [solid, ho]
  rw [hsp] at h
  cases hc : chunks is with
  | nil => exact absurd hc (chunks_ne is)
  | cons c cs =>
    rw [hc] at h
    simp only [join] at h
    split at h
    · simp only [List.cons.injEq] at h
      rw [← h.1]; simp [beginsName, ho]
    · simp only [List.cons.injEq] at h
      rw [← h.1]; simp [beginsName, ho]

/-- joining twice -/
theorem join_join (cur k : List Token) (bs : List (List Token)) (hbs : bs ≠ []) (hk : k ≠ []) (h : (endsName cur && beginsName k) = false) :
    join cur (join k bs) = join (cur ++ k) bs := by
  cases bs with
  | nil => exact absurd rfl hbs
  | cons b bs =>
    have e1 := endsName_append cur k hk
    have e2 : beginsName (k ++ b) = beginsName k := by
      cases k with
      | nil => exact absurd rfl hk
      | cons x k => rfl
    simp only [join, e1]
    by_cases hc : (endsName k && beginsName b) = true
    · simp [hc, h, join]
    · simp only [hc, Bool.false_eq_true, if_false, join, e2, h]
      simp

theorem join_nil (cur : List Token) (bs : List (List Token)) (hbs : bs ≠ []) : join cur (join [] bs) = join cur bs := by
  cases bs with
  | nil => exact absurd rfl hbs
  | cons b bs => simp [join, endsName]

theorem loop_items (is : List Item) (hv : ∀ i ∈ is, i.Valid) (d : List (List Token)) (cur st : List Token) (hst : NoPow st) :
    ∃ d' c' st', blockLoop ⟨d, cur, st⟩ (is.flatMap Item.tokens) = .ok ⟨d', c', st'⟩ ∧ d' ++ [c'] = d ++ join cur (chunks is) := by
  induction is generalizing d cur st with
  | nil => exact ⟨d, cur, st, rfl, by simp [chunks, join, beginsName]⟩
  | cons i is ih =>
    have ih := ih (fun j hj => hv j (by simp [hj]))
    have hi := hv i (by simp)
    have hne := chunks_ne is
    cases i with
    | power p e =>
      obtain ⟨d', c', st', h1, h2⟩ := ih d (cur ++ solid (p :: e)) st hst
      refine ⟨d', c', st', ?_, ?_⟩
      · simp only [List.flatMap_cons, Item.tokens]
        rw [blockLoop_append, loop_power p e hi d cur st hst]
        exact h1
      · rw [h2]
        congr 1
        have ho : p.typ = .op := hi.1
        have hsp : solid (p :: e) = p :: solid e := by rw [solid_cons]; simp [solid, ho]
        simp only [chunks]
        rw [join_join cur _ _ hne (by rw [hsp]; simp) (by rw [hsp]; simp [beginsName, ho])]
    | tok t =>
      obtain ⟨hk, hnp⟩ := hi
      have hnpb : isPow t.text = false := by
        cases h : isPow t.text with
        | false => rfl
        | true => exact absurd ((isPow_iff t).mp h) hnp
      have hst2 : NoPow (opStack t st) := by
        unfold opStack
        split
        · simp only [NoPow, List.any_cons, Bool.or_eq_false_iff]; exact ⟨hnpb, hst⟩
        · split
          · exact popParen_noPow hst
          · simp only [hnpb, Bool.false_eq_true, if_false]; exact hst
      have hst' := hst
      unfold NoPow at hst'
      simp only [List.flatMap_cons, Item.tokens, List.cons_append, List.nil_append, blockLoop]
      cases ht : t.typ with
      | op =>
        by_cases hsep : IsSep t
        · have hkb : keepsBlock t.text = false := by
            cases h : keepsBlock t.text with
            | false => rfl
            | true => exact absurd hsep ((keepsBlock_iff t ht hk).mp h)
          have hs : blockStep ⟨d, cur, st⟩ t = .ok ⟨d ++ [cur], [], opStack t st⟩ := by
            unfold blockStep handle
            simp only [ht, allowed hk ht, hkb, hst', Bool.or_false, Bool.false_eq_true, if_true, if_false, popPow_noPow hst2]
          obtain ⟨d', c', st', h1, h2⟩ := ih (d ++ [cur]) [] (opStack t st) hst2
          refine ⟨d', c', st', by rw [hs]; exact h1, ?_⟩
          rw [h2]
          simp only [chunks, if_pos hsep]
          cases hc : chunks is with
          | nil => exact absurd hc hne
          | cons b bs => simp [join, endsName, beginsName]
        · have hkb : keepsBlock t.text = true := (keepsBlock_iff t ht hk).mpr hsep
          have hs : blockStep ⟨d, cur, st⟩ t = .ok ⟨d, cur ++ [t], opStack t st⟩ := by
            unfold blockStep handle
            simp only [ht, allowed hk ht, hkb, Bool.or_true, if_true, popPow_noPow hst2]
          obtain ⟨d', c', st', h1, h2⟩ := ih d (cur ++ [t]) (opStack t st) hst2
          refine ⟨d', c', st', by rw [hs]; exact h1, ?_⟩
          rw [h2]
          simp only [chunks, if_neg hsep]
          have hsol : solid [t] = [t] := by simp [solid, ht]
          rw [hsol, join_join cur [t] _ hne (by simp) (by simp [beginsName, ht])]
      | name =>
        have hsep : ¬ IsSep t := fun h => by rw [h.1] at ht; cases ht
        have hsol : solid [t] = [t] := by simp [solid, ht]
        simp only [chunks, if_neg hsep, hsol]
        cases hen : endsName cur with
        | false =>
          have hs : blockStep ⟨d, cur, st⟩ t = .ok ⟨d, cur ++ [t], st⟩ := by
            unfold blockStep handle
            simp only [ht, hen, Bool.not_false, Bool.or_true, if_true, popPow_noPow hst]
          obtain ⟨d', c', st', h1, h2⟩ := ih d (cur ++ [t]) st hst
          refine ⟨d', c', st', by rw [hs]; exact h1, ?_⟩
          rw [h2, join_join cur [t] _ hne (by simp) (by simp [hen])]
        | true =>
          have hs : blockStep ⟨d, cur, st⟩ t = .ok ⟨d ++ [cur], [t], st⟩ := by
            unfold blockStep handle
            simp only [ht, hst', hen, Bool.not_true, Bool.or_false, Bool.false_eq_true, if_false, popPow_noPow hst]
          obtain ⟨d', c', st', h1, h2⟩ := ih (d ++ [cur]) [t] st hst
          refine ⟨d', c', st', by rw [hs]; exact h1, ?_⟩
          rw [h2]
          cases hc : chunks is with
          | nil => exact absurd hc hne
          | cons b bs =>
            have hbn : ∀ r, beginsName (t :: r) = true := fun r => by simp [beginsName, ht]
            by_cases hb : (endsName [t] && beginsName b) = true
            · have ej : join [t] (b :: bs) = [t] :: b :: bs := by simp only [join, hb, if_true]
              rw [ej]
              simp only [join, hen, hbn, Bool.and_self, if_true, List.append_assoc, List.cons_append, List.nil_append]
            · have ej : join [t] (b :: bs) = (t :: b) :: bs := by
                simp only [join, if_neg hb, List.cons_append, List.nil_append]
              rw [ej]
              simp only [join, hen, hbn, Bool.and_self, if_true, List.append_assoc, List.cons_append, List.nil_append]
      | number =>
        have hsep : ¬ IsSep t := fun h => by rw [h.1] at ht; cases ht
        have hsol : solid [t] = [t] := by simp [solid, ht]
        have hs : blockStep ⟨d, cur, st⟩ t = .ok ⟨d, cur ++ [t], st⟩ := by
          unfold blockStep handle
          simp only [ht, popPow_noPow hst]
        obtain ⟨d', c', st', h1, h2⟩ := ih d (cur ++ [t]) st hst
        refine ⟨d', c', st', by rw [hs]; exact h1, ?_⟩
        simp only [chunks, if_neg hsep, hsol]
        rw [h2, join_join cur [t] _ hne (by simp) (by simp [beginsName, ht])]
      | error =>
        have hsep : ¬ IsSep t := fun h => by rw [h.1] at ht; cases ht
        have hsol : solid [t] = [t] := by simp [solid, ht]
        have hs : blockStep ⟨d, cur, st⟩ t = .ok ⟨d, cur ++ [t], st⟩ := by
          unfold blockStep handle
          simp only [ht, popPow_noPow hst]
        obtain ⟨d', c', st', h1, h2⟩ := ih d (cur ++ [t]) st hst
        refine ⟨d', c', st', by rw [hs]; exact h1, ?_⟩
        simp only [chunks, if_neg hsep, hsol]
        rw [h2, join_join cur [t] _ hne (by simp) (by simp [beginsName, ht])]
      | other =>
        have hsep : ¬ IsSep t := fun h => by rw [h.1] at ht; cases ht
        have hsol : solid [t] = [] := by simp [solid, ht]
        have hs : blockStep ⟨d, cur, st⟩ t = .ok ⟨d, cur, st⟩ := by
          unfold blockStep handle
          simp only [ht, popPow_noPow hst]
        obtain ⟨d', c', st', h1, h2⟩ := ih d cur st hst
        refine ⟨d', c', st', by rw [hs]; exact h1, ?_⟩
        simp only [chunks, if_neg hsep, hsol]
        rw [h2, join_nil cur _ hne]

/-- C53, the blocks of an expression: separators outside exponents and adjacent names end a block, exponents stay with their base.
Missing: exponents that are a sign followed by a group (see the counterexample) or not of the form of an exponent at all. -/
theorem C53_blocks_partial (is : List Item) (hv : ∀ i ∈ is, i.Valid) :
    findBlocks (is.flatMap Item.tokens) = .ok (chunks is) := by
  obtain ⟨d', c', st', h1, h2⟩ := loop_items is hv [] [] [] rfl
  unfold findBlocks
  rw [h1]
  simp only [Except.ok.injEq, h2, List.nil_append]
  have hne := chunks_ne is
  cases hc : chunks is with
  | nil => exact absurd hc hne
  | cons b bs => simp [join, endsName]

/-- the hypotheses are met by `m**(2*n)/5 s` with names, numbers and operators -/
example : (∀ i ∈ [Item.tok ⟨.name, ['m'], 0, 1⟩, .power ⟨.op, ['*', '*'], 1, 3⟩ [⟨.op, ['('], 3, 4⟩, ⟨.number, ['2'], 4, 5⟩, ⟨.op, ['*'], 5, 6⟩, ⟨.name, ['n'], 6, 7⟩, ⟨.op, [')'], 7, 8⟩],
      .tok ⟨.op, ['/'], 8, 9⟩, .tok ⟨.number, ['5'], 9, 10⟩, .tok ⟨.name, ['s'], 11, 12⟩], i.Valid) ∧
    chunks [Item.tok ⟨.name, ['m'], 0, 1⟩, .power ⟨.op, ['*', '*'], 1, 3⟩ [⟨.op, ['('], 3, 4⟩, ⟨.number, ['2'], 4, 5⟩, ⟨.op, ['*'], 5, 6⟩, ⟨.name, ['n'], 6, 7⟩, ⟨.op, [')'], 7, 8⟩],
      .tok ⟨.op, ['/'], 8, 9⟩, .tok ⟨.number, ['5'], 9, 10⟩, .tok ⟨.name, ['s'], 11, 12⟩] =
    [[⟨.name, ['m'], 0, 1⟩, ⟨.op, ['*', '*'], 1, 3⟩, ⟨.op, ['('], 3, 4⟩, ⟨.number, ['2'], 4, 5⟩, ⟨.op, ['*'], 5, 6⟩, ⟨.name, ['n'], 6, 7⟩, ⟨.op, [')'], 7, 8⟩],
      [⟨.number, ['5'], 9, 10⟩, ⟨.name, ['s'], 11, 12⟩]] := by
  refine ⟨?_, by decide⟩
  intro i hi
  simp only [List.mem_cons, List.not_mem_nil, or_false] at hi
  rcases hi with rfl | rfl | rfl | rfl | rfl
  · exact ⟨by decide, by decide⟩
  · refine ⟨rfl, by decide, Exponent.group _ _ [⟨.number, ['2'], 4, 5⟩, ⟨.op, ['*'], 5, 6⟩, ⟨.name, ['n'], 6, 7⟩] ⟨rfl, rfl⟩ ⟨rfl, rfl⟩ ?_⟩
    refine .tok _ _ (by decide) (fun h => by cases h.1) (fun h => by cases h.1) (.tok _ _ (by decide) ?_ ?_ (.tok _ _ (by decide) ?_ ?_ .nil))
    all_goals exact fun h => absurd h.2 (by decide)
  · exact ⟨by decide, by decide⟩
  · exact ⟨by decide, by decide⟩
  · exact ⟨by decide, by decide⟩

/-- C53 fails for a sign before a group: in `m**-(2*3)` the exponent is torn apart and 3 is taken for a scaling factor -/
theorem C53_signed_group_counterexample :
    scalingFactors (fun _ => false) "m**-(2*3)".toList [⟨.name, ['m'], 0, 1⟩, ⟨.op, ['*', '*'], 1, 3⟩, ⟨.op, ['-'], 3, 4⟩, ⟨.op, ['('], 4, 5⟩,
      ⟨.number, ['2'], 5, 6⟩, ⟨.op, ['*'], 6, 7⟩, ⟨.number, ['3'], 7, 8⟩, ⟨.op, [')'], 8, 9⟩] = .ok [⟨['2'], ['2'], none⟩, ⟨['3'], ['3'], none⟩] := by decide

/-! ## Which blocks are accepted -/

/-- a number that cannot be a scaling factor: after a name, before a power operator, or with another number -/
def Refused (block : List Token) : Prop :=
  ∃ a v r, block = a ++ v :: r ∧ v.typ = .number ∧ (∀ t ∈ a ++ [v], ¬ IsPow t) ∧
    ((∃ t ∈ a, t.typ = .name) ∨ (∃ t ∈ r, IsPow t) ∨ (∃ t ∈ r, t.typ = .number))

/-- the characters of the input from column `a` to before column `b` -/
def Between (input s : List Char) (a b : Nat) : Prop := ∀ i, s[i]? = if a + i < b then input[a + i]? else none

/-- the input from the first token of a list to the last, if there is one -/
def Covers (input s : List Char) (ts : List Token) : Prop :=
  ∃ t u, ts.head? = some t ∧ ts.getLast? = some u ∧ Between input s t.start u.stop

/-- the scaling factor of a block: the only number, before the names. The scaled term is the text of the block, the unit is the text after
the number up to the end of the first name. -/
def Factor (input : List Char) (block : List Token) (x : Todo) : Prop :=
  ∃ a v r, block = a ++ v :: r ∧ v.typ = .number ∧ v.text = x.value ∧ ¬ IsPow v ∧ (∀ t ∈ a, t.typ ≠ .number ∧ t.typ ≠ .name ∧ ¬ IsPow t) ∧
    (∀ t ∈ r, t.typ ≠ .number ∧ ¬ IsPow t) ∧ Covers input x.term block ∧
    match x.unit with
    | none => ∀ t ∈ r, t.typ ≠ .name
    | some u => ∃ b n c, r = b ++ n :: c ∧ n.typ = .name ∧ (∀ t ∈ b, t.typ ≠ .name) ∧ Covers input u (b ++ [n])

theorem firstIdx_none {p : Token → Bool} {l : List Token} : firstIdx p l = none ↔ ∀ t ∈ l, p t = false := by
  induction l with
  | nil => simp [firstIdx]
  | cons t l ih =>
    simp only [firstIdx, List.mem_cons, forall_eq_or_imp]
    cases hp : p t with
    | true => simp
    | false => simp [ih]

theorem firstIdx_append {p : Token → Bool} {a : List Token} (r : List Token) (h : ∀ t ∈ a, p t = false) :
    firstIdx p (a ++ r) = (firstIdx p r).map (· + a.length) := by
  induction a with
  | nil => cases h : firstIdx p r <;> simp [h]
  | cons t a ih =>
    have h1 := h t (by simp)
    simp only [List.cons_append, firstIdx, h1, Bool.false_eq_true, if_false, ih (fun x hx => h x (by simp [hx])), Option.map_map]
    cases firstIdx p r <;> simp [Nat.add_assoc]

theorem firstIdx_some {p : Token → Bool} {l : List Token} {n : Nat} (h : firstIdx p l = some n) :
    ∃ a t r, l = a ++ t :: r ∧ a.length = n ∧ p t = true ∧ ∀ x ∈ a, p x = false := by
  induction l generalizing n with
  | nil => simp [firstIdx] at h
  | cons t l ih =>
    simp only [firstIdx] at h
    cases hp : p t with
    | true =>
      simp only [hp, if_true, Option.some.injEq] at h
      exact ⟨[], t, l, rfl, by simpa using h, hp, by simp⟩
    | false =>
      simp only [hp, Bool.false_eq_true, if_false] at h
      cases hf : firstIdx p l with
      | none => simp [hf] at h
      | some m =>
        simp only [hf, Option.map_some, Option.some.injEq] at h
        obtain ⟨a, x, r, h1, h2, h3, h4⟩ := ih hf
        refine ⟨t :: a, x, r, by rw [h1]; rfl, by simp [h2, h], h3, ?_⟩
        intro y hy
        rcases List.mem_cons.mp hy with rfl | hy
        · exact hp
        · exact h4 y hy

/-- numbers with positions, starting to count at `k` -/
def numbersFrom (k : Nat) : List Token → Nat → List (Nat × List Char)
  | [], _ => []
  | t :: ts, n => (if t.typ = .number ∧ k < n then [(k, t.text)] else []) ++ numbersFrom (k + 1) ts n

theorem numbersBefore_eq (block : List Token) (n : Nat) : numbersBefore block n = numbersFrom 0 block n := by
  have key : ∀ (l : List Token) (k : Nat),
      ((List.range' k l.length).zip l).filterMap (fun p => if p.2.typ = .number ∧ p.1 < n then some (p.1, p.2.text) else none) =
        numbersFrom k l n := by
    intro l
    induction l with
    | nil => intro k; rfl
    | cons t l ih =>
      intro k
      simp only [List.length_cons, List.range'_succ, List.zip_cons_cons, List.filterMap_cons, numbersFrom]
      split
      · rename_i h
        split at h
        · cases h
        · rename_i h2; rw [if_neg h2]; simpa using ih (k + 1)
      · rename_i b h
        split at h
        · rename_i h2; injection h with h; rw [if_pos h2, ← h, List.singleton_append, ih (k + 1)]
        · cases h
  unfold numbersBefore
  rw [List.range_eq_range']
  exact key block 0

theorem numbersFrom_append (k : Nat) (a b : List Token) (n : Nat) : numbersFrom k (a ++ b) n = numbersFrom k a n ++ numbersFrom (k + a.length) b n := by
  induction a generalizing k with
  | nil => rfl
  | cons t a ih =>
    simp only [List.cons_append, numbersFrom, ih, List.append_assoc, List.length_cons]
    congr 2
    rw [Nat.add_assoc, Nat.add_comm 1]

theorem numbersFrom_nil_iff (k : Nat) (l : List Token) (n : Nat) (hn : k + l.length ≤ n) :
    numbersFrom k l n = [] ↔ ∀ t ∈ l, t.typ ≠ .number := by
  induction l generalizing k with
  | nil => simp [numbersFrom]
  | cons t l ih =>
    simp only [List.length_cons] at hn
    simp only [numbersFrom, List.append_eq_nil_iff, ih (k + 1) (by omega), List.mem_cons, forall_eq_or_imp]
    have : (if t.typ = .number ∧ k < n then [(k, t.text)] else []) = [] ↔ t.typ ≠ .number := by
      by_cases h : t.typ = .number
      · simp [h]; omega
      · simp [h]
    rw [this]

theorem numbersFrom_ge (k : Nat) (l : List Token) (n : Nat) (h : n ≤ k) : numbersFrom k l n = [] := by
  induction l generalizing k with
  | nil => rfl
  | cons t l ih =>
    simp only [numbersFrom]
    rw [if_neg (by omega), ih (k + 1) (by omega)]; rfl

theorem numbersFrom_cons {k : Nat} {l : List Token} {n i : Nat} {v : List Char} {rest : List (Nat × List Char)}
    (h : numbersFrom k l n = (i, v) :: rest) :
    ∃ a x r, l = a ++ x :: r ∧ x.typ = .number ∧ x.text = v ∧ i = k + a.length ∧ i < n ∧ (∀ t ∈ a, t.typ ≠ .number) ∧
      numbersFrom (i + 1) r n = rest := by
  induction l generalizing k with
  | nil => simp [numbersFrom] at h
  | cons t l ih =>
    simp only [numbersFrom] at h
    by_cases hc : t.typ = .number ∧ k < n
    · rw [if_pos hc] at h
      simp only [List.cons_append, List.nil_append, List.cons.injEq, Prod.mk.injEq] at h
      obtain ⟨⟨rfl, rfl⟩, h2⟩ := h
      exact ⟨[], t, l, rfl, hc.1, rfl, rfl, hc.2, by simp, h2⟩
    · rw [if_neg hc, List.nil_append] at h
      obtain ⟨a, y, r, h1, hy1, hy2, h2, h3, h4, h5⟩ := ih h
      refine ⟨t :: a, y, r, by rw [h1]; rfl, hy1, hy2, by simp only [List.length_cons]; omega, h3, ?_, h5⟩
      intro x hx
      rcases List.mem_cons.mp hx with rfl | hx
      · intro e
        exact hc ⟨e, by omega⟩
      · exact h4 x hx

theorem split_unique {P : Token → Prop} {a r a' r' : List Token} {x x' : Token} (h : a ++ x :: r = a' ++ x' :: r')
    (hx' : P x') (ha : ∀ t ∈ a, ¬ P t) (hr : ∀ t ∈ r, ¬ P t) : a = a' ∧ x = x' ∧ r = r' := by
  induction a generalizing a' with
  | nil =>
    cases a' with
    | nil => simp only [List.nil_append, List.cons.injEq] at h; exact ⟨rfl, h.1, h.2⟩
    | cons y a' =>
      simp only [List.nil_append, List.cons_append, List.cons.injEq] at h
      exact absurd hx' (hr x' (by rw [h.2]; simp))
  | cons z a ih =>
    cases a' with
    | nil =>
      simp only [List.nil_append, List.cons_append, List.cons.injEq] at h
      exact absurd hx' (ha x' (by rw [← h.1]; simp))
    | cons y a' =>
      simp only [List.cons_append, List.cons.injEq] at h
      obtain ⟨h1, h2, h3⟩ := ih h.2 (fun t ht => ha t (by simp [ht]))
      exact ⟨by rw [h.1, h1], h2, h3⟩

/-- splitting at the first token with a property -/
theorem split_first {P : Token → Prop} {a r a' r' : List Token} {x x' : Token} (h : a ++ x :: r = a' ++ x' :: r')
    (hx : P x) (hx' : P x') (ha : ∀ t ∈ a, ¬ P t) (ha' : ∀ t ∈ a', ¬ P t) : a = a' ∧ x = x' ∧ r = r' := by
  induction a generalizing a' with
  | nil =>
    cases a' with
    | nil => simp only [List.nil_append, List.cons.injEq] at h; exact ⟨rfl, h.1, h.2⟩
    | cons y a' =>
      simp only [List.nil_append, List.cons_append, List.cons.injEq] at h
      exact absurd hx (ha' x (by rw [h.1]; simp))
  | cons z a ih =>
    cases a' with
    | nil =>
      simp only [List.nil_append, List.cons_append, List.cons.injEq] at h
      exact absurd hx' (ha x' (by rw [← h.1]; simp))
    | cons y a' =>
      simp only [List.cons_append, List.cons.injEq] at h
      obtain ⟨h1, h2, h3⟩ := ih h.2 (fun t ht => ha t (by simp [ht])) (fun t ht => ha' t (by simp [ht]))
      exact ⟨by rw [h.1, h1], h2, h3⟩

theorem between_slice (input : List Char) (a b : Nat) : Between input (slice input a b) a b := by
  intro i
  simp only [slice, List.getElem?_drop, List.getElem?_take]

theorem between_unique {input s t : List Char} {a b : Nat} (hs : Between input s a b) (ht : Between input t a b) : s = t :=
  List.ext_getElem? fun i => by rw [hs i, ht i]

theorem covers_unique {input s t : List Char} {ts : List Token} (hs : Covers input s ts) (ht : Covers input t ts) : s = t := by
  obtain ⟨x, y, h1, h2, h3⟩ := hs
  obtain ⟨x', y', h1', h2', h3'⟩ := ht
  rw [h1] at h1'; rw [h2] at h2'
  cases h1'; cases h2'
  exact between_unique h3 h3'

theorem covers_slice (input : List Char) (pre ts post : List Token) (h : ts ≠ []) :
    Covers input (slice input (startAt (pre ++ ts ++ post) pre.length) (stopAt (pre ++ ts ++ post) (pre.length + ts.length - 1))) ts := by
  have hl : 0 < ts.length := List.length_pos_iff.mpr h
  refine ⟨ts.head h, ts.getLast h, List.head?_eq_some_head h, List.getLast?_eq_some_getLast h, ?_⟩
  have h1 : (pre ++ ts ++ post)[pre.length]? = some (ts.head h) := by
    rw [List.getElem?_append_left (by simp; omega), List.getElem?_append_right (by omega), Nat.sub_self, ← List.head?_eq_getElem?]
    exact List.head?_eq_some_head h
  have h2 : (pre ++ ts ++ post)[pre.length + ts.length - 1]? = some (ts.getLast h) := by
    rw [List.getElem?_append_left (by simp; omega), List.getElem?_append_right (by omega),
      show pre.length + ts.length - 1 - pre.length = ts.length - 1 by omega, ← List.getLast?_eq_getElem?]
    exact List.getLast?_eq_some_getLast h
  have e1 : startAt (pre ++ ts ++ post) pre.length = (ts.head h).start := by simp only [startAt, h1]
  have e2 : stopAt (pre ++ ts ++ post) (pre.length + ts.length - 1) = (ts.getLast h).stop := by simp only [stopAt, h2]
  rw [e1, e2]
  exact between_slice _ _ _

theorem factor_not_refused {input : List Char} {block : List Token} {x : Todo} (h : Factor input block x) : ¬ Refused block := by
  rintro ⟨a', w, r', e, hw, -, hbad⟩
  obtain ⟨a, v, r, e0, -, -, -, ha, hr, -⟩ := h
  rw [e0] at e
  obtain ⟨rfl, -, rfl⟩ := split_unique (P := fun t => t.typ = .number) e hw (fun t ht => (ha t ht).1) (fun t ht => (hr t ht).1)
  rcases hbad with ⟨t, ht, h1⟩ | ⟨t, ht, h1⟩ | ⟨t, ht, h1⟩
  · exact (ha t ht).2.1 h1
  · exact (hr t ht).2 h1
  · exact (hr t ht).1 h1

theorem factor_unique {input : List Char} {block : List Token} {x y : Todo} (h : Factor input block x) (h' : Factor input block y) : x = y := by
  obtain ⟨a, v, r, e, hv, hv1, -, ha, hr, hc, hu⟩ := h
  obtain ⟨a', v', r', e', hv', hv1', -, -, -, hc', hu'⟩ := h'
  rw [e] at e'
  obtain ⟨rfl, h2, rfl⟩ := split_unique (P := fun t => t.typ = .number) e' hv' (fun t ht => (ha t ht).1) (fun t ht => (hr t ht).1)
  have h1 := covers_unique hc hc'
  obtain ⟨t, w, u⟩ := x
  obtain ⟨t', w', u'⟩ := y
  simp only at h1 hv1 hv1' hu hu'
  have h3 : w = w' := by rw [← hv1, ← hv1', h2]
  have h4 : u = u' := by
    cases u with
    | none =>
      cases u' with
      | none => rfl
      | some u' =>
        simp only at hu hu'
        obtain ⟨b, n, c, e1, e2, -, -⟩ := hu'
        exact absurd e2 (hu n (by rw [e1]; simp))
    | some u =>
      cases u' with
      | none =>
        simp only at hu hu'
        obtain ⟨b, n, c, e1, e2, -, -⟩ := hu
        exact absurd e2 (hu' n (by rw [e1]; simp))
      | some u' =>
        simp only at hu hu'
        obtain ⟨b, n, c, e1, e2, e3, e4⟩ := hu
        obtain ⟨b', n', c', e1', e2', e3', e4'⟩ := hu'
        rw [e1] at e1'
        obtain ⟨rfl, rfl, rfl⟩ := split_first (P := fun t => t.typ = .name) e1' e2 e2' e3 e3'
        rw [covers_unique e4 e4']
  rw [h1, h3, h4]

/-- the part of a block before its first power operator -/
theorem pow_split (block : List Token) : ∃ pre post, block = pre ++ post ∧ (∀ t ∈ pre, ¬ IsPow t) ∧
    (post = [] ∨ ∃ p q, post = p :: q ∧ IsPow p) ∧ (firstIdx (fun t => isPow t.text) block).getD block.length = pre.length := by
  cases h : firstIdx (fun t => isPow t.text) block with
  | none =>
    refine ⟨block, [], by simp, ?_, Or.inl rfl, rfl⟩
    intro t ht hp
    have := firstIdx_none.mp h t ht
    rw [(isPow_iff t).mpr hp] at this
    cases this
  | some n =>
    obtain ⟨a, t, r, h1, h2, h3, h4⟩ := firstIdx_some h
    refine ⟨a, t :: r, h1, ?_, Or.inr ⟨t, r, rfl, (isPow_iff t).mp h3⟩, by simp [h2]⟩
    intro t ht hp
    have := h4 t ht
    rw [(isPow_iff t).mpr hp] at this
    cases this

/-- the first number before any power operator lies in the first part -/
theorem number_in_pre {pre post a r : List Token} {v : Token} (h : pre ++ post = a ++ v :: r)
    (hpost : post = [] ∨ ∃ p q, post = p :: q ∧ IsPow p) (hn : ∀ t ∈ a ++ [v], ¬ IsPow t) : v ∈ pre := by
  induction pre generalizing a with
  | nil =>
    rcases hpost with rfl | ⟨p, q, rfl, hp⟩
    · simp at h
    · cases a with
      | nil => simp only [List.nil_append, List.cons.injEq] at h; exact absurd hp (hn p (by rw [h.1]; simp))
      | cons y a => simp only [List.nil_append, List.cons_append, List.cons.injEq] at h; exact absurd hp (hn p (by rw [h.1]; simp))
  | cons x pre ih =>
    cases a with
    | nil => simp only [List.nil_append, List.cons_append, List.cons.injEq] at h; rw [h.1]; simp
    | cons y a =>
      simp only [List.cons_append, List.cons.injEq] at h
      exact List.mem_cons_of_mem _ (ih h.2 (fun t ht => hn t (by
        rw [List.cons_append]; exact List.mem_cons_of_mem _ ht)))

/-- what becomes of a block: refused, its factor reported, or left alone -/
theorem identify_cases (tf : List Char → Bool) (input : List Char) (block : List Token) :
    (identifyBlock tf input block = .error .valueError ∧ Refused block) ∨
    (∃ x, Factor input block x ∧ identifyBlock tf input block = .ok (if tf x.value then none else some x)) ∨
    (identifyBlock tf input block = .ok none ∧ ¬ Refused block ∧ ∀ x, ¬ Factor input block x) := by
  obtain ⟨pre, post, hb, hpre, hpost, hi⟩ := pow_split block
  have hnum : numbersBefore block pre.length = numbersFrom 0 pre pre.length := by
    rw [numbersBefore_eq, hb, numbersFrom_append, numbersFrom_ge (0 + pre.length) post pre.length (by omega), List.append_nil]
  unfold identifyBlock
  simp only [hi, hnum]
  cases hN : numbersFrom 0 pre pre.length with
  | nil =>
    right; right
    have hno := (numbersFrom_nil_iff 0 pre pre.length (by omega)).mp hN
    refine ⟨rfl, ?_, ?_⟩
    · rintro ⟨a, v, r, e, hv, hnp, -⟩
      rw [hb] at e
      exact hno v (number_in_pre e hpost hnp) hv
    · rintro x ⟨a, v, r, e, hv, -, hnv, ha, -⟩
      rw [hb] at e
      refine hno _ (number_in_pre e hpost ?_) hv
      intro t ht
      rcases List.mem_append.mp ht with ht | ht
      · exact (ha t ht).2.2
      · rw [List.mem_singleton.mp ht]; exact hnv
  | cons p rest =>
    obtain ⟨i, v⟩ := p
    obtain ⟨a, x, r, e, hx, hxv, hia, hilt, ha, hrest⟩ := numbersFrom_cons hN
    have hi' : i = a.length := by omega
    have hnp : ∀ t ∈ a ++ [x], ¬ IsPow t := by
      intro t ht
      apply hpre t
      rw [e]
      rcases List.mem_append.mp ht with ht | ht
      · simp [ht]
      · rw [List.mem_singleton.mp ht]; simp
    have hlen : i + 1 + r.length = pre.length := by rw [e, hi']; simp; omega
    cases rest with
    | cons q rest =>
      left
      refine ⟨rfl, a, x, r ++ post, by rw [hb, e]; simp, hx, hnp, Or.inr (Or.inr ?_)⟩
      obtain ⟨j, w⟩ := q
      obtain ⟨a2, y, r2, e2, hy, -⟩ := numbersFrom_cons hrest
      exact ⟨y, by rw [e2]; simp, hy⟩
    | nil =>
      have hrn := (numbersFrom_nil_iff (i + 1) r pre.length (by omega)).mp hrest
      simp only
      rcases hpost with rfl | ⟨p, q, rfl, hp⟩
      · have hbl : block = pre := by rw [hb]; simp
        rw [if_neg (by rw [hbl]; simp)]
        have hterm : Covers input (slice input (startAt block 0) (stopAt block (block.length - 1))) block := by
          have := covers_slice input [] block [] (by rw [hbl, e]; simp)
          simpa using this
        cases hname : firstIdx (fun t => t.typ == .name) block with
        | none =>
          right; left
          have hnn := firstIdx_none.mp hname
          have hall : ∀ t ∈ a ++ x :: r, t.typ ≠ .name := by
            intro t ht htn
            have := hnn t (by rw [hbl, e]; exact ht)
            simp [htn] at this
          refine ⟨⟨_, v, none⟩, ⟨a, x, r, by rw [hbl, e], hx, hxv, hnp _ (by simp), ?_, ?_, hterm, ?_⟩, by simp only; split <;> rfl⟩
          · intro t ht; exact ⟨ha t ht, hall t (by simp [ht]), hnp t (by simp [ht])⟩
          · intro t ht; exact ⟨hrn t ht, hpre t (by rw [e]; simp [ht])⟩
          · intro t ht; exact hall t (by simp [ht])
        | some j =>
          simp only
          obtain ⟨a3, t3, r3, e3, hj, hname3, hno3⟩ := firstIdx_some hname
          have hn3 : t3.typ = .name := by simpa using hname3
          by_cases hlt : j < i
          · rw [if_pos hlt]
            left
            refine ⟨rfl, a, x, r, by rw [hbl, e], hx, hnp, Or.inl ⟨t3, ?_, hn3⟩⟩
            rw [hbl, e] at e3
            have h1 := congrArg (fun l => l[j]?) e3
            rw [List.getElem?_append_left (by omega), List.getElem?_append_right (by omega), hj] at h1
            simp only [Nat.sub_self, List.getElem?_cons_zero] at h1
            exact List.mem_of_getElem? h1
          · rw [if_neg hlt]
            right; left
            have ha3 : ∀ t ∈ a, t.typ ≠ .name := by
              intro t ht htn
              rw [hbl, e] at e3
              obtain ⟨k, hk⟩ := List.getElem?_of_mem ht
              have hklt : k < a.length := by
                rcases Nat.lt_or_ge k a.length with h | h
                · exact h
                · rw [List.getElem?_eq_none h] at hk; cases hk
              have h1 := congrArg (fun l => l[k]?) e3
              rw [List.getElem?_append_left hklt, List.getElem?_append_left (by omega), hk] at h1
              have := hno3 t (List.mem_of_getElem? h1.symm)
              simp [htn] at this
            -- the first name stands after the number
            have hsplit : ∃ b, a3 = a ++ x :: b ∧ r = b ++ t3 :: r3 := by
              have e4 : a ++ x :: r = a3 ++ t3 :: r3 := by rw [← e, ← hbl, e3]
              rcases List.append_eq_append_iff.mp e4 with ⟨c, h1, h2⟩ | ⟨c, h1, h2⟩
              · cases c with
                | nil =>
                  simp only [List.nil_append, List.cons.injEq] at h2
                  rw [← h2.1, hx] at hn3; cases hn3
                | cons y c =>
                  simp only [List.cons_append, List.cons.injEq] at h2
                  exact ⟨c, by rw [h1, h2.1], h2.2⟩
              · cases c with
                | nil =>
                  simp only [List.nil_append, List.cons.injEq] at h2
                  rw [h2.1, hx] at hn3; cases hn3
                | cons y c =>
                  simp only [List.cons_append, List.cons.injEq] at h2
                  exact absurd hn3 (ha3 t3 (by rw [h1, h2.1]; simp))
            obtain ⟨b, hb1, hb2⟩ := hsplit
            have hb3 : ∀ t ∈ b, t.typ ≠ .name := by
              intro t ht htn
              have := hno3 t (by rw [hb1]; simp [ht])
              simp [htn] at this
            have hunit : Covers input (slice input (startAt block (i + 1)) (stopAt block j)) (b ++ [t3]) := by
              have := covers_slice input (a ++ [x]) (b ++ [t3]) r3 (by simp)
              have h1 : (a ++ [x]) ++ (b ++ [t3]) ++ r3 = block := by rw [hbl, e, hb2]; simp
              have h2 : (a ++ [x]).length = i + 1 := by simp [hi']
              have h3 : (a ++ [x]).length + (b ++ [t3]).length - 1 = j := by
                rw [← hj, hb1]; simp; omega
              rw [h1, h3, h2] at this
              exact this
            refine ⟨⟨_, v, some _⟩, ⟨a, x, r, by rw [hbl, e], hx, hxv, hnp _ (by simp), ?_, ?_, hterm, ?_⟩, by split <;> rfl⟩
            · intro t ht; exact ⟨ha t ht, ha3 t ht, hnp t (by simp [ht])⟩
            · intro t ht; exact ⟨hrn t ht, hpre t (by rw [e]; simp [ht])⟩
            · exact ⟨b, t3, r3, hb2, hn3, hb3, hunit⟩
      · left
        rw [if_pos (by rw [hb]; simp)]
        exact ⟨rfl, a, x, r ++ p :: q, by rw [hb, e]; simp, hx, hnp, Or.inr (Or.inl ⟨p, by simp, hp⟩)⟩

/-- C53, the factor found in a block is its only number, standing before the unit and not raised to a power, with the text of the block and of the
unit; factors one and zero are left alone -/
theorem C53_factor (tf : List Char → Bool) (input : List Char) (block : List Token) (x : Todo) :
    identifyBlock tf input block = .ok (some x) ↔ Factor input block x ∧ tf x.value = false := by
  rcases identify_cases tf input block with ⟨h1, h2⟩ | ⟨w, h1, h2⟩ | ⟨h1, h2, h3⟩
  · rw [h1]
    exact ⟨(fun h => by cases h), fun h => absurd h2 (factor_not_refused h.1)⟩
  · rw [h2]
    constructor
    · intro h
      cases htf : tf w.value with
      | true => simp [htf] at h
      | false =>
        simp only [htf, Bool.false_eq_true, if_false, Except.ok.injEq, Option.some.injEq] at h
        subst h
        exact ⟨h1, htf⟩
    · rintro ⟨h3, h4⟩
      obtain rfl := factor_unique h3 h1
      simp [h4]
  · rw [h1]
    exact ⟨fun h => by simp at h, fun h => absurd h.1 (h3 x)⟩

/-- C53, a block is refused exactly if it holds a number that cannot be a scaling factor -/
theorem C53_refused (tf : List Char → Bool) (input : List Char) (block : List Token) :
    identifyBlock tf input block = .error .valueError ↔ Refused block := by
  rcases identify_cases tf input block with ⟨h1, h2⟩ | ⟨w, h1, h2⟩ | ⟨h1, h2, h3⟩
  · exact ⟨fun _ => h2, fun _ => h1⟩
  · rw [h2]
    exact ⟨(fun h => by cases h), fun h => absurd h (factor_not_refused h1)⟩
  · rw [h1]
    exact ⟨(fun h => by cases h), fun h => absurd h h2⟩

theorem identifyFactors_spec (tf : List Char → Bool) (input : List Char) (bs : List (List Token)) :
    (identifyFactors tf input bs = .error .valueError ↔ ∃ b ∈ bs, Refused b) ∧
    ((∀ b ∈ bs, ¬ Refused b) → ∃ fs, identifyFactors tf input bs = .ok fs ∧
      ∀ x, x ∈ fs ↔ ∃ b ∈ bs, Factor input b x ∧ tf x.value = false) := by
  induction bs with
  | nil => exact ⟨⟨(fun h => by cases h), fun ⟨b, hb, _⟩ => by simp at hb⟩, fun _ => ⟨[], rfl, by simp⟩⟩
  | cons b bs ih =>
    simp only [identifyFactors, List.mem_cons, exists_eq_or_imp, forall_eq_or_imp]
    have hb := C53_refused tf input b
    have hf := C53_factor tf input b
    cases hi : identifyBlock tf input b with
    | error e =>
      have he : e = .valueError := by
        rcases identify_cases tf input b with ⟨h1, -⟩ | ⟨w, -, h2⟩ | ⟨h1, -⟩
        · rw [hi] at h1; simpa using h1
        · rw [hi] at h2; cases h2
        · rw [hi] at h1; cases h1
      subst he
      have hr := hb.mp hi
      exact ⟨⟨fun _ => Or.inl hr, fun _ => rfl⟩, fun h => absurd hr h.1⟩
    | ok x =>
      have hnr : ¬ Refused b := fun h => by rw [hb.mpr h] at hi; cases hi
      simp only [hnr, false_or, not_false_eq_true, true_and]
      refine ⟨?_, ?_⟩
      · rw [← ih.1]
        cases hfs : identifyFactors tf input bs with
        | error e => simp
        | ok fs => simp
      · intro hall
        obtain ⟨fs, h1, h2⟩ := ih.2 hall
        rw [h1]
        refine ⟨_, rfl, ?_⟩
        intro v
        rw [← hf v, hi]
        cases x with
        | none => simp [h2]
        | some y =>
          simp only [List.mem_cons, h2, Except.ok.injEq, Option.some.injEq]
          constructor
          · rintro (h | h)
            · exact Or.inl h.symm
            · exact Or.inr h
          · rintro (h | h)
            · exact Or.inl h.symm
            · exact Or.inr h

/-- C53, the expression as a whole: refused exactly if some block after the first holds a number that cannot be a scaling factor,
and otherwise the scaling factors are those of the blocks after the first -/
theorem C53_expression_partial (tf : List Char → Bool) (input : List Char) (is : List Item) (hv : ∀ i ∈ is, i.Valid) :
    (scalingFactors tf input (is.flatMap Item.tokens) = .error .valueError ↔ ∃ b ∈ (chunks is).tail, Refused b) ∧
    ((∀ b ∈ (chunks is).tail, ¬ Refused b) → ∃ fs, scalingFactors tf input (is.flatMap Item.tokens) = .ok fs ∧
      ∀ x, x ∈ fs ↔ ∃ b ∈ (chunks is).tail, Factor input b x ∧ tf x.value = false) := by
  unfold scalingFactors
  rw [C53_blocks_partial is hv]
  simp only [List.drop_one]
  exact identifyFactors_spec tf input _

/-- in `g/5 mL`, `5 mL` has the factor 5 and the unit `mL` -/
example : Factor "g/5 mL".toList [⟨.number, ['5'], 2, 3⟩, ⟨.name, ['m', 'L'], 4, 6⟩] ⟨"5 mL".toList, ['5'], some ['m', 'L']⟩ := by
  refine ((C53_factor (fun _ => false) _ _ _).mp ?_).1
  decide

/-- `mL 5` and `5**2` are refused -/
example : Refused [⟨.name, ['m', 'L'], 0, 2⟩, ⟨.number, ['5'], 3, 4⟩] ∧
    Refused [⟨.number, ['5'], 0, 1⟩, ⟨.op, ['*', '*'], 1, 3⟩, ⟨.number, ['2'], 3, 4⟩] :=
  ⟨⟨[⟨.name, ['m', 'L'], 0, 2⟩], ⟨.number, ['5'], 3, 4⟩, [], rfl, rfl, by decide, Or.inl ⟨_, List.mem_singleton.mpr rfl, rfl⟩⟩,
    ⟨[], ⟨.number, ['5'], 0, 1⟩, [⟨.op, ['*', '*'], 1, 3⟩, ⟨.number, ['2'], 3, 4⟩], rfl, rfl, by decide,
      Or.inr (Or.inl ⟨⟨.op, ['*', '*'], 1, 3⟩, by simp, by decide⟩)⟩⟩

end Verif.Mangle
