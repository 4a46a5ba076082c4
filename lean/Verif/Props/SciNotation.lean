import Verif.Props.SciExpr
/-!
# C64: powers of ten in a unit expression are written in scientific notation without changing its value
-/

set_option linter.unusedSimpArgs false
set_option linter.unusedVariables false

namespace Verif.SciNotation
open Verif.Py Verif.Regex

variable {K : Type} (S : Sem K)

theorem value_plain {f : Factor} {ds w : List Char} (h : f.plain = some (ds, w)) : f.value S = S.lit (digits ds : Rat) := by
  unfold Factor.plain at h
  split at h
  · split at h
    · rename_i hk
      cases h
      simp only [Factor.value, Atom.value, Numeral.value, Numeral.mantValue, hk.1, hk.2]
    · cases h
  · cases h

theorem value_negPlain {f : Factor} {sg ds w : List Char} (h : f.negPlain = some (sg, ds, w)) : f.value S = S.lit (expValue sg ds : Rat) := by
  unfold Factor.negPlain at h
  split at h
  · rename_i g
    cases hp : g.plain with
    | none => rw [hp] at h; cases h
    | some p =>
      rw [hp] at h
      cases h
      simp only [Factor.value, value_plain S hp, S.lit_neg, expValue, if_true]
      congr 1
  · cases hp : f.plain with
    | none => rw [hp] at h; cases h
    | some p =>
      rw [hp] at h
      cases h
      rw [value_plain S hp]
      rfl

/-- the exponent that is read is the value of the factor -/
theorem value_intLike {f : Factor} {sg ds w : List Char} (h : f.intLike = some (sg, ds, w)) : f.value S = S.lit (expValue sg ds : Rat) := by
  unfold Factor.intLike at h
  split at h
  · simp only [Factor.value]; exact value_negPlain S h
  · exact value_negPlain S h

theorem value_ten (n : Numeral) (w : List Char) (h : (Atom.num n w).isTen = true) : S.lit n.value = S.lit 10 := by
  simp only [Atom.isTen, beq_iff_eq] at h
  subst h
  congr 1

/-- a power of ten -/
theorem value_tenPow {a : Atom} {c : Bool} {w sg ds w' : List Char} {f : Factor} (ha : a.isTen = true) (h : f.intLike = some (sg, ds, w')) :
    (Factor.pow a c w f).value S = S.lit (10 ^ expValue sg ds) := by
  cases a with
  | name => cases ha
  | paren => cases ha
  | num n w =>
    simp only [Factor.value, Atom.value]
    rw [value_ten S n w ha, value_intLike S h, S.pow_ten]

theorem value_absorb {sg ds w : List Char} (f : Factor) (h1 : f.scalar = true) (h2 : f.absorbs = true) :
    (f.absorb sg ds w).value S = S.mul (f.value S) (S.lit (10 ^ expValue sg ds)) := by
  match f, h1, h2 with
  | .atom (.num n w'), _, h2 =>
    simp only [Factor.absorbs, beq_iff_eq] at h2
    simp only [Factor.absorb, Factor.value, Atom.value, S.lit_mul]
    congr 1
    simp only [Numeral.value, h2, Numeral.mantValue]
  | .sgn true w' f, h1, h2 =>
    simp only [Factor.absorb, Factor.value]
    rw [value_absorb f h1 h2, S.neg_mul]
  | .sgn false w' f, h1, h2 =>
    simp only [Factor.absorb, Factor.value]
    exact value_absorb f h1 h2
  termination_by structural f

mutual

theorem value_atom (a : Atom) (h : a.good = true) : a.merge.value S = a.value S := by
  cases a with
  | num n w => rfl
  | name t w => rfl
  | paren w e w' =>
    simp only [Atom.merge, Atom.value]
    exact (value_expr e h).1 _ _
  termination_by structural a

theorem value_factor (f : Factor) (h : f.good = true) : f.merge.value S = f.value S := by
  cases f with
  | atom a => simp only [Factor.merge, Factor.value]; exact value_atom a h
  | sgn b w f =>
    have := value_factor f h
    cases b <;> simp only [Factor.merge, Factor.value, this]
  | pow a c w f =>
    simp only [Factor.good, Bool.and_eq_true] at h
    have h1 := value_atom a h.1
    have h2 := value_factor f h.2
    simp only [Factor.merge]
    split
    · rename_i sg ds w' e
      split at e
      · rename_i ha
        rw [value_tenPow S ha e]
        simp only [Factor.value, Atom.value, Numeral.value, Numeral.mantValue]
        congr 1
        have : ((digits ['1'] : Nat) : Rat) = 1 := by decide +kernel
        rw [this, Rat.one_mul]
      · cases e
    · simp only [Factor.value, h1, h2]
  termination_by structural f

theorem value_expr (r : Expr) (h : r.good = true) :
    (∀ s t, (r.merge false).eval S s t = r.eval S s t) ∧
      ∀ o f r', r = .cons o f r' → ∀ s t, (r.merge true).eval S s t = r'.eval S s t := by
  cases r with
  | nil => exact ⟨fun _ _ => rfl, by intros; contradiction⟩
  | cons o f r =>
    simp only [Expr.good, Bool.and_eq_true] at h
    obtain ⟨⟨hf, hg⟩, hr⟩ := h
    have ih := value_expr r hr
    have ihf := value_factor f hf
    refine ⟨?_, ?_⟩
    · intro s t
      simp only [Expr.merge, Bool.false_eq_true, if_false]
      cases hq : (if f.absorbs then r.tenHead else none) with
      | none =>
        simp only
        cases o <;> simp only [Expr.eval, ihf, ih.1]
      | some q =>
        obtain ⟨sg, ds, w⟩ := q
        simp only
        split at hq
        · rename_i hab
          simp only [hq, hab, Option.isSome_some, Bool.not_true, Bool.false_or, Bool.and_eq_true, Bool.not_eq_true'] at hg
          have hv := value_absorb S (sg := sg) (ds := ds) (w := w) f hg.1 hab
          -- the expression goes on with `* 10 ** k`
          cases r with
          | nil => cases hq
          | cons o' f' r' =>
            have hr' := ih.2 o' f' r' rfl
            unfold Expr.tenHead at hq
            split at hq
            · rename_i w1 a c w2 g r'' e
              cases e
              split at hq
              · rename_i ha
                have hp := value_tenPow S (c := c) (w := w2) ha hq
                cases o with
                | slash => exact absurd hg.2 (by simp [Op.divides])
                | dslash => exact absurd hg.2 (by simp [Op.divides])
                | first => simp only [Expr.eval, hr', hv, hp]
                | juxt => simp only [Expr.eval, hr', hv, hp, S.mul_assoc]
                | star => simp only [Expr.eval, hr', hv, hp, S.mul_assoc]
                | plus => simp only [Expr.eval, hr', hv, hp]
                | minus => simp only [Expr.eval, hr', hv, hp]
              · cases hq
            · cases hq
        · cases hq
    · intro o' f' r' e s t
      cases e
      have : Expr.merge true (.cons o f r) = r.merge false := by rw [Expr.merge]; rfl
      rw [this]
      exact ih.1 s t
  termination_by structural r

end

/-! ## The rewritten tokens can be told apart -/

/-- the first tokens are of the same kind -/
theorem rewrite_head (r : List Tok) : (r = [] ∧ rewrite r = []) ∨ (∃ n w r' n' w' r'', r = .num n w :: r' ∧ rewrite r = .num n' w' :: r'') ∨
    ∃ t r', (∀ n w, t ≠ .num n w) ∧ r = t :: r' ∧ rewrite r = t :: rewrite r' := by
  cases r with
  | nil => exact .inl ⟨rfl, rfl⟩
  | cons t r =>
    cases t with
    | name t w => exact .inr (.inr ⟨_, _, (by intros; simp), rfl, rfl⟩)
    | sym t w => exact .inr (.inr ⟨_, _, (by intros; simp), rfl, rfl⟩)
    | num n w =>
      refine .inr (.inl ?_)
      rw [rewrite_num]
      split
      · exact ⟨_, _, _, _, _, _, rfl, rfl⟩
      · split
        · exact ⟨_, _, _, _, _, _, rfl, rfl⟩
        · exact ⟨_, _, _, _, _, _, rfl, rfl⟩

theorem apart_num {t : Tok} {n n' : Numeral} {w w' : List Char} (h : apart t (.num n w) = true) : apart t (.num n' w') = true := by
  cases t with
  | num k v => cases v <;> simp_all [apart, Tok.word]
  | name k v => cases v <;> simp_all [apart, Tok.word]
  | sym s v => cases s <;> cases v <;> simp_all [apart, Tok.word]

theorem lexed_num {n n' : Numeral} {w : List Char} {r : List Tok} (h : lexed (.num n w :: r) = true) (hr : lexed (rewrite r) = true) (hn : n'.wf = true) :
    lexed (.num n' w :: rewrite r) = true := by
  obtain ⟨h1, h2, h3⟩ := lexed_cons h
  simp only [lexed, Bool.and_eq_true]
  refine ⟨⟨?_, ?_⟩, hr⟩
  · have := wf_blanks h1
    simp only [Tok.wf, Tok.blanks, Bool.and_eq_true] at this ⊢
    exact ⟨this, hn⟩
  · rcases rewrite_head r with ⟨_, e⟩ | ⟨k, v, r', k', v', r'', e1, e2⟩ | ⟨t, r', _, e1, e2⟩
    · rw [e]
    · rw [e2]
      have := h3 _ _ e1
      have := apart_num (n' := k') (w' := v') this
      cases w <;> simp_all [apart, Tok.word]
    · rw [e2]
      have := h3 _ _ e1
      cases w <;> simp_all [apart, Tok.word]

theorem lexed_rewrite (m : Nat) (toks : List Tok) (hm : toks.length ≤ m) (hl : lexed toks = true) : lexed (rewrite toks) = true := by
  induction m generalizing toks with
  | zero =>
    have : toks = [] := by cases toks with | nil => rfl | cons x xs => simp at hm
    subst this
    rfl
  | succ m ih =>
    cases toks with
    | nil => rfl
    | cons t r =>
      simp only [List.length_cons, Nat.add_le_add_iff_right] at hm
      obtain ⟨h1, h2, h3⟩ := lexed_cons hl
      have other : (∀ n w, t ≠ .num n w) → rewrite (t :: r) = t :: rewrite r → lexed (rewrite (t :: r)) = true := by
        intro _ e
        rw [e]
        simp only [lexed, Bool.and_eq_true]
        refine ⟨⟨h1, ?_⟩, ih r hm h2⟩
        rcases rewrite_head r with ⟨_, e⟩ | ⟨k, v, r', k', v', r'', e1, e2⟩ | ⟨t, r', _, e1, e2⟩
        · rw [e]
        · rw [e2]; exact apart_num (h3 _ _ e1)
        · rw [e2]; exact h3 _ _ e1
      cases t with
      | name t w => exact other (by intros; simp) rfl
      | sym t w => exact other (by intros; simp) rfl
      | num n w =>
        have hw := h1
        simp only [Tok.wf, Bool.and_eq_true] at hw
        have matched : ∀ p k w' r' (sg ds : List Char) (n' : Numeral), r = p ++ .num k w' :: r' → (sg = [] ∨ sg = ['-']) → k.int = ds → k.frac = none →
            n'.wf = true → n'.exp = none → lexed (.num { n' with exp := some (sg, ds) } w' :: rewrite r') = true := by
          intro p k w' r' sg ds n' hr hsg hds hf hn he
          have hl' : lexed (.num k w' :: r') = true := lexed_suffix (p := p) (hr ▸ h2)
          have hlen : r'.length ≤ m := by
            have : r.length = p.length + (r'.length + 1) := by rw [hr]; simp
            omega
          refine lexed_num hl' (ih r' hlen (lexed_cons hl').2.1) ?_
          have hk := (lexed_cons hl').1
          simp only [Tok.wf, Numeral.wf, Bool.and_eq_true, hf, bne_iff_ne, ne_eq] at hk
          simp only [Numeral.wf, Bool.and_eq_true] at hn ⊢
          refine ⟨hn.1, ?_⟩
          subst hds
          simp only [hk.2.1.1, hk.2.1.2, Bool.or_eq_true, beq_iff_eq, bne_iff_ne, ne_eq, not_false_eq_true, and_true]
          rcases hsg with rfl | rfl <;> simp
        rw [rewrite_num]
        split
        · rename_i sg ds w' r' e
          split at e
          · rename_i he
            obtain ⟨p, k, hr, a1, a2, a3, a4⟩ := tenTail_split e
            exact matched p k w' r' sg ds n hr a1 a2 a3 hw.2 he
          · cases e
        · split
          · rename_i sg ds w' r' e
            split at e
            · obtain ⟨p, k, hr, a1, a2, a3, a4⟩ := powInt_split e
              exact matched p k w' r' sg ds ⟨['1'], none, none⟩ hr a1 a2 a3 (by decide) rfl
            · cases e
          · exact lexed_num hl (ih r hm h2) hw.2

/-! ## No power of ten is left -/

mutual

def Atom.scientific : Atom → Bool
  | .paren _ e _ => e.scientific
  | _ => true

def Factor.scientific : Factor → Bool
  | .atom a => a.scientific
  | .sgn _ _ f => f.scientific
  | .pow a _ _ f => !(a.isTen && f.intLike.isSome) && a.scientific && f.scientific

/-- nowhere in the expression is `10` raised to a whole number -/
def Expr.scientific : Expr → Bool
  | .nil => true
  | .cons _ f r => f.scientific && r.scientific

end

theorem isTen_merge (a : Atom) : a.merge.isTen = a.isTen := by cases a <;> rfl

theorem plain_merge (f : Factor) (h : f.plain = none) : f.merge.plain = none := by
  cases f with
  | atom a => cases a with
    | num n w => exact h
    | name => rfl
    | paren => rfl
  | sgn => rfl
  | pow a c w f =>
    simp only [Factor.merge]
    split
    · simp [Factor.plain]
    · rfl

theorem negPlain_merge (f : Factor) (h : f.negPlain = none) : f.merge.negPlain = none := by
  by_cases hf : ∃ g, f = .sgn true [] g
  · obtain ⟨g, rfl⟩ := hf
    simp only [Factor.negPlain, Option.map_eq_none_iff] at h
    simp only [Factor.merge, Factor.negPlain, plain_merge g h, Option.map_none]
  · have h1 : f.plain = none := by
      unfold Factor.negPlain at h
      split at h
      · exact absurd ⟨_, rfl⟩ hf
      · simpa using h
    have h2 : ¬ ∃ g, f.merge = .sgn true [] g := by
      rintro ⟨g, e⟩
      cases f with
      | atom a => cases e
      | sgn b w f => simp only [Factor.merge] at e; cases e; exact hf ⟨_, rfl⟩
      | pow a c w f => simp only [Factor.merge] at e; split at e <;> cases e
    unfold Factor.negPlain
    split
    · rename_i e; exact absurd ⟨_, e⟩ h2
    · simp [plain_merge f h1]

theorem intLike_merge (f : Factor) (h : f.intLike = none) : f.merge.intLike = none := by
  by_cases hf : ∃ g, f = .sgn false [] g
  · obtain ⟨g, rfl⟩ := hf
    exact negPlain_merge g h
  · have h1 : f.negPlain = none := by
      unfold Factor.intLike at h
      split at h
      · exact absurd ⟨_, rfl⟩ hf
      · exact h
    have h2 : ¬ ∃ g, f.merge = .sgn false [] g := by
      rintro ⟨g, e⟩
      cases f with
      | atom a => cases e
      | sgn b w f => simp only [Factor.merge] at e; cases e; exact hf ⟨_, rfl⟩
      | pow a c w f => simp only [Factor.merge] at e; split at e <;> cases e
    unfold Factor.intLike
    split
    · rename_i e; exact absurd ⟨_, e⟩ h2
    · exact negPlain_merge f h1

theorem plain_absorb (f : Factor) (sg ds w : List Char) (h : f.absorbs = true) : (f.absorb sg ds w).plain = none := by
  cases f with
  | atom a => cases a with
    | num n w => simp [Factor.absorb, Factor.plain]
    | name => cases h
    | paren => cases h
  | sgn => rfl
  | pow => rfl

theorem intLike_absorb (f : Factor) (sg ds w : List Char) (h : f.absorbs = true) : (f.absorb sg ds w).intLike = none := by
  have neg : ∀ f : Factor, f.absorbs = true → (f.absorb sg ds w).negPlain = none := by
    intro f h
    unfold Factor.negPlain
    split
    · rename_i e
      cases f with
      | sgn b v f =>
        simp only [Factor.absorb] at e
        cases e
        simp [plain_absorb f sg ds w h]
      | atom a => cases a <;> cases e
      | pow => cases e
    · simp [plain_absorb f sg ds w h]
  unfold Factor.intLike
  split
  · rename_i e
    cases f with
    | sgn b v f =>
      simp only [Factor.absorb] at e
      cases e
      exact neg f h
    | atom a => cases a <;> cases e
    | pow => cases e
  · exact neg f h

mutual

theorem scientific_atom (a : Atom) : a.merge.scientific = true := by
  cases a with
  | num n w => rfl
  | name t w => rfl
  | paren w e w' => exact scientific_expr e false
  termination_by structural a

theorem scientific_factor (f : Factor) : f.merge.scientific = true ∧ ∀ sg ds w, f.absorbs = true → (f.absorb sg ds w).scientific = true := by
  cases f with
  | atom a =>
    have := scientific_atom a
    refine ⟨this, fun sg ds w h => ?_⟩
    cases a with
    | num n w => rfl
    | name => cases h
    | paren => cases h
  | sgn b w f => exact scientific_factor f
  | pow a c w f =>
    have h1 := scientific_atom a
    have h2 := scientific_factor f
    refine ⟨?_, fun sg ds w' h => ?_⟩
    · simp only [Factor.merge]
      split
      · rfl
      · rename_i hn
        simp only [Factor.scientific, h1, h2.1, Bool.and_true, isTen_merge]
        cases ha : a.isTen with
        | false => rfl
        | true =>
          rw [ha] at hn
          rw [intLike_merge f hn]
          rfl
    · simp only [Factor.absorbs, Bool.and_eq_true] at h
      simp only [Factor.absorb, Factor.scientific, h1, h2.2 sg ds w' h.2, intLike_absorb f sg ds w' h.2, Option.isSome_none, Bool.and_false, Bool.not_false, Bool.and_true]
  termination_by structural f

theorem scientific_expr (r : Expr) (skip : Bool) : (r.merge skip).scientific = true := by
  cases r with
  | nil => rfl
  | cons o f r =>
    have h1 := scientific_factor f
    have h2 := scientific_expr r true
    have h3 := scientific_expr r false
    simp only [Expr.merge]
    split
    · exact h3
    · split
      · rename_i e
        split at e
        · rename_i hab
          simp only [Expr.scientific, h1.2 _ _ _ hab, h2, Bool.and_true]
        · cases e
      · simp only [Expr.scientific, h1.1, h3, Bool.and_true]
  termination_by structural r

end

/-! ## C64 -/

/-- `_scientific_notation_preprocessor` (units/impl.py:46-52) keeps the value: for every expression whose tokens can be told apart, where no number before `* 10 ** k`
is a divisor or an exponent and no number is taken apart (`safe`), the text becomes the text of an expression with the same value, whatever the unit names mean,
in which `10` is nowhere raised to a whole number.
Missing for the full property are the expressions below. -/
theorem C64_value_partial {e : Expr} (hl : lexed e.toks = true) (hs : safe e.toks = true) (hg : e.good = true) :
    ∃ e' : Expr, preprocess e.text = e'.text ∧ lexed e'.toks = true ∧ e'.scientific = true ∧ ∀ (K : Type) (S : Sem K), e'.value S = e.value S := by
  have h := (rewrite_expr e [] rfl (by simpa using hs)).1
  simp only [List.append_nil, rewrite_nil] at h
  refine ⟨e.merge false, ?_, ?_, scientific_expr e false, fun K S => (value_expr S e hg).1 _ _⟩
  · unfold Expr.text
    rw [preprocess_text hl hs, h]
  · rw [← h]
    exact lexed_rewrite _ _ (Nat.le_refl _) hl

/-- no power is written in the text -/
def NoPow (s : List Char) : Prop := '^' ∉ s ∧ ¬ ['*', '*'] <:+: s

theorem NoPow.suffix {s t : List Char} (h : NoPow s) (ht : t <:+ s) : NoPow t :=
  ⟨fun hm => h.1 (ht.subset hm), fun hi => h.2 (hi.trans ht.isInfix)⟩

theorem noPow_afterTen {s : List Char} (h : NoPow s) : afterTen0 s = none := by
  have h' := h.suffix (List.dropWhile_suffix isSpace (l := s))
  unfold afterTen0
  split
  · rename_i r e
    rw [e] at h'
    exact absurd ⟨[], r, rfl⟩ h'.2
  · rename_i r e
    rw [e] at h'
    exact absurd (by simp) h'.1
  · rfl

theorem noPow_ten {s : List Char} (h : NoPow s) : ten0 s = none := by
  unfold ten0
  split
  · exact noPow_afterTen (h.suffix ⟨['1', '0'], rfl⟩)
  · rfl

theorem noPow_hit {s : List Char} (h : NoPow s) : hit s = none := by
  have h1 : scaled0 s = none := by
    unfold scaled0
    split
    · rename_i t r hn
      obtain ⟨rfl, _⟩ := number_split hn
      have hr := h.suffix (List.suffix_append t r)
      have : times0 r = none := by
        have h' := hr.suffix (List.dropWhile_suffix isSpace (l := r))
        unfold times0
        split
        · rename_i r' e
          rw [e] at h'
          exact noPow_ten ((h'.suffix (List.suffix_cons _ _)).suffix (List.dropWhile_suffix isSpace))
        · rfl
      rw [this]
      rfl
    · rfl
  unfold hit
  rw [h1, noPow_ten h]
  rfl

/-- a text without powers is left alone -/
theorem C64_untouched {s : List Char} (h1 : '^' ∉ s) (h2 : ¬ ['*', '*'] <:+: s) : preprocess s = s := by
  rw [preprocess_scan]
  have key : ∀ (s : List Char) (b : Bool), NoPow s → scan b s = s := by
    intro s
    induction s with
    | nil => intro b _; rfl
    | cons x xs ih =>
      intro b h
      rw [scan_none (noPow_hit h), ih _ (h.suffix (List.suffix_cons _ _))]
  exact key s false ⟨h1, h2⟩

/-! ## Rational numbers -/

/-- unit names mean two, powers with fractional exponents are not computed -/
def ratSem : Sem Rat where
  lit := id
  name := fun _ => 2
  mul := (· * ·)
  div := (· / ·)
  fdiv a b := ((a / b).floor : Rat)
  add := (· + ·)
  sub := (· - ·)
  neg := fun a => -a
  pow a b := if b.den = 1 then a ^ b.num else 0
  mul_assoc := Rat.mul_assoc
  lit_mul := fun _ _ => rfl
  lit_neg := fun _ => rfl
  neg_mul := Rat.neg_mul
  pow_ten := by intro k; simp

section examples

def num (s : String) : Numeral := ⟨s.toList, none, none⟩
def atom (n : Numeral) (w : String) : Factor := .atom (.num n w.toList)
def unit (s w : String) : Atom := .name s.toList w.toList

/-- `2 - 1.5 * 10 ** -3 m / (10^2 s) + -3*10**+-1` -/
def exGood : Expr :=
  .cons .first (atom (num "2") " ") (.cons (.minus [' ']) (atom ⟨['1'], some ['5'], none⟩ " ") (.cons (.star [' ']) (.pow (.num .ten [' ']) false [' '] (.sgn true [] (atom (num "3") " ")))
    (.cons .juxt (.atom (unit "m" " ")) (.cons (.slash [' ']) (.atom (.paren [] (.cons .first (.pow (.num .ten []) true [] (atom (num "2") " ")) (.cons .juxt (.atom (unit "s" "")) .nil)) [' ']))
      (.cons (.plus [' ']) (.sgn true [] (atom (num "3") "")) (.cons (.star []) (.pow (.num .ten []) false [] (.sgn false [] (.sgn true [] (atom (num "1") "")))) .nil))))))

example : lexed exGood.toks = true ∧ safe exGood.toks = true ∧ exGood.good = true ∧ String.ofList exGood.text = "2 - 1.5 * 10 ** -3 m / (10^2 s) + -3*10**+-1" ∧
    String.ofList (preprocess exGood.text) = "2 - 1.5e-3 m / (1e2 s) + -3e-1" := by decide +kernel

/-- not for divisors: `m/3*10^3` becomes `m/3e3` -/
theorem C64_divisor_counterexample : ∃ e e' : Expr, lexed e.toks = true ∧ safe e.toks = true ∧ e.text = "m/3*10^3".toList ∧ preprocess e.text = "m/3e3".toList ∧
    e'.text = "m/3e3".toList ∧ lexed e'.toks = true ∧ e'.value ratSem ≠ e.value ratSem :=
  ⟨.cons .first (.atom (unit "m" "")) (.cons (.slash []) (atom (num "3") "") (.cons (.star []) (.pow (.num .ten []) true [] (atom (num "3") "")) .nil)),
    .cons .first (.atom (unit "m" "")) (.cons (.slash []) (atom ⟨['3'], none, some ([], ['3'])⟩ "") .nil), by decide +kernel⟩

/-- not for exponents: `m^2*10^3` becomes `m^2e3` -/
theorem C64_exponent_counterexample : ∃ e e' : Expr, lexed e.toks = true ∧ safe e.toks = true ∧ e.text = "m^2*10^3".toList ∧ preprocess e.text = "m^2e3".toList ∧
    e'.text = "m^2e3".toList ∧ lexed e'.toks = true ∧ e'.value ratSem ≠ e.value ratSem :=
  ⟨.cons .first (.pow (unit "m" "") true [] (atom (num "2") "")) (.cons (.star []) (.pow (.num .ten []) true [] (atom (num "3") "")) .nil),
    .cons .first (.pow (unit "m" "") true [] (atom ⟨['2'], none, some ([], ['3'])⟩ "")) .nil, by decide +kernel⟩

/-- not for a fraction that reads `10`: `1.10**2` becomes `1.1e2` -/
theorem C64_fraction_counterexample : ∃ e e' : Expr, lexed e.toks = true ∧ e.good = true ∧ e.text = "1.10**2".toList ∧ preprocess e.text = "1.1e2".toList ∧
    e'.text = "1.1e2".toList ∧ lexed e'.toks = true ∧ e'.value ratSem ≠ e.value ratSem :=
  ⟨.cons .first (.pow (.num ⟨['1'], some ['1', '0'], none⟩ []) false [] (atom (num "2") "")) .nil,
    .cons .first (atom ⟨['1'], some ['1'], some ([], ['2'])⟩ "") .nil, by decide +kernel⟩

/-- not for a tower of powers: `10**2**3` becomes `1e2**3` -/
theorem C64_tower_counterexample : ∃ e e' : Expr, lexed e.toks = true ∧ e.good = true ∧ e.text = "10**2**3".toList ∧ preprocess e.text = "1e2**3".toList ∧
    e'.text = "1e2**3".toList ∧ lexed e'.toks = true ∧ e'.value ratSem ≠ e.value ratSem :=
  ⟨.cons .first (.pow (.num .ten []) false [] (.pow (.num (num "2") []) false [] (atom (num "3") ""))) .nil,
    .cons .first (.pow (.num ⟨['1'], none, some ([], ['2'])⟩ []) false [] (atom (num "3") "")) .nil, by decide +kernel⟩

/-- numbers with signed exponents and fractional exponents are taken apart -/
theorem C64_broken_counterexample : preprocess "1e-3*10**2".toList = "1e-3e2".toList ∧ preprocess "10**2.5".toList = "1e2.5".toList := by decide +kernel

example : '^' ∉ "10 * 2.5 kg*m/s".toList ∧ ¬ ['*', '*'] <:+: "10 * 2.5 kg*m/s".toList := by decide +kernel

end examples

end Verif.SciNotation
