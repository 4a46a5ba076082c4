import Verif.Props.SciRewrite
/-!
# `_scientific_notation_preprocessor` on unit expressions
-/

set_option linter.unusedSimpArgs false
set_option linter.unusedVariables false

namespace Verif.SciNotation
open Verif.Py Verif.Regex

/-- what stands between two factors; `first` stands before the first one -/
inductive Op where
  | first | juxt | star (w : List Char) | slash (w : List Char) | dslash (w : List Char) | plus (w : List Char) | minus (w : List Char)

mutual

inductive Atom where
  | num (n : Numeral) (w : List Char)
  | name (t w : List Char)
  | paren (w : List Char) (e : Expr) (w' : List Char)

inductive Factor where
  | atom (a : Atom)
  | sgn (neg : Bool) (w : List Char) (f : Factor)
  | pow (a : Atom) (caret : Bool) (w : List Char) (f : Factor)

/-- factors with what stands before each -/
inductive Expr where
  | nil
  | cons (o : Op) (f : Factor) (r : Expr)

end

def Op.toks : Op → List Tok
  | .first => []
  | .juxt => []
  | .star w => [.sym .star w]
  | .slash w => [.sym .slash w]
  | .dslash w => [.sym .dslash w]
  | .plus w => [.sym .plus w]
  | .minus w => [.sym .minus w]

mutual

def Atom.toks : Atom → List Tok
  | .num n w => [.num n w]
  | .name t w => [.name t w]
  | .paren w e w' => .sym .lpar w :: (e.toks ++ [.sym .rpar w'])

def Factor.toks : Factor → List Tok
  | .atom a => a.toks
  | .sgn neg w f => .sym (if neg then .minus else .plus) w :: f.toks
  | .pow a c w f => a.toks ++ .sym (if c then .caret else .pow) w :: f.toks

def Expr.toks : Expr → List Tok
  | .nil => []
  | .cons o f r => o.toks ++ (f.toks ++ r.toks)

end

/-- the text of an expression -/
def Expr.text (e : Expr) : List Char := SciNotation.text e.toks

/-! ## The value of an expression -/

/-- what is computed with: numbers, unit names and operations, with the laws that are needed -/
structure Sem (K : Type) where
  lit : Rat → K
  name : List Char → K
  mul : K → K → K
  div : K → K → K
  fdiv : K → K → K
  add : K → K → K
  sub : K → K → K
  neg : K → K
  pow : K → K → K
  mul_assoc : ∀ a b c, mul (mul a b) c = mul a (mul b c)
  lit_mul : ∀ a b, mul (lit a) (lit b) = lit (a * b)
  lit_neg : ∀ a, neg (lit a) = lit (-a)
  neg_mul : ∀ a b, mul (neg a) b = neg (mul a b)
  pow_ten : ∀ k : Int, pow (lit 10) (lit k) = lit (10 ^ k)

/-- the number written with these digits -/
def digits (t : List Char) : Nat := t.foldl (fun a c => 10 * a + (c.toNat - 48)) 0

/-- an exponent -/
def expValue (sg ds : List Char) : Int := if sg = ['-'] then -(digits ds : Int) else digits ds

def Numeral.mantValue (n : Numeral) : Rat := match n.frac with
  | none => (digits n.int : Rat)
  | some f => (digits (n.int ++ f) : Rat) / 10 ^ f.length

def Numeral.value (n : Numeral) : Rat := match n.exp with
  | none => n.mantValue
  | some (sg, ds) => n.mantValue * 10 ^ expValue sg ds

mutual

def Atom.value {K : Type} (S : Sem K) : Atom → K
  | .num n _ => S.lit n.value
  | .name t _ => S.name t
  | .paren _ e _ => e.eval S id (S.lit 1)

def Factor.value {K : Type} (S : Sem K) : Factor → K
  | .atom a => a.value S
  | .sgn true _ f => S.neg (f.value S)
  | .sgn false _ f => f.value S
  | .pow a _ _ f => S.pow (a.value S) (f.value S)

/-- `t` is the product so far, `s` what is done with the product when it is complete -/
def Expr.eval {K : Type} (S : Sem K) (s : K → K) (t : K) : Expr → K
  | .nil => s t
  | .cons o f r => match o with
    | .first => r.eval S id (f.value S)
    | .juxt => r.eval S s (S.mul t (f.value S))
    | .star _ => r.eval S s (S.mul t (f.value S))
    | .slash _ => r.eval S s (S.div t (f.value S))
    | .dslash _ => r.eval S s (S.fdiv t (f.value S))
    | .plus _ => r.eval S (fun x => S.add (s t) x) (f.value S)
    | .minus _ => r.eval S (fun x => S.sub (s t) x) (f.value S)

end

/-- the value: products are computed from left to right, before sums -/
def Expr.value {K : Type} (S : Sem K) (e : Expr) : K := e.eval S id (S.lit 1)

/-! ## The rewritten expression -/

def Atom.isTen : Atom → Bool
  | .num n _ => n == .ten
  | _ => false

/-- a whole number -/
def Factor.plain : Factor → Option (List Char × List Char)
  | .atom (.num k w) => if k.frac = none ∧ k.exp = none then some (k.int, w) else none
  | _ => none

def Factor.negPlain : Factor → Option (List Char × List Char × List Char)
  | .sgn true [] h => h.plain.map fun p => (['-'], p.1, p.2)
  | f => f.plain.map fun p => ([], p.1, p.2)

/-- a whole number with its sign: sign, digits, blanks -/
def Factor.intLike : Factor → Option (List Char × List Char × List Char)
  | .sgn false [] g => g.negPlain
  | f => f.negPlain

/-- the factor ends with a number that is taken for the number before `* 10 ** k` -/
def Factor.absorbs : Factor → Bool
  | .atom (.num n _) => n.exp == none
  | .atom _ => false
  | .sgn _ _ f => f.absorbs
  | .pow a _ _ f => !(a.isTen && f.intLike.isSome) && f.absorbs

/-- the expression begins with `* 10 ** k` -/
def Expr.tenHead : Expr → Option (List Char × List Char × List Char)
  | .cons (.star _) (.pow a _ _ f) _ => if a.isTen then f.intLike else none
  | _ => none

mutual

def Atom.merge : Atom → Atom
  | .num n w => .num n w
  | .name t w => .name t w
  | .paren w e w' => .paren w (e.merge false) w'

def Factor.merge : Factor → Factor
  | .atom a => .atom a.merge
  | .sgn b w f => .sgn b w f.merge
  | .pow a c w f => match (if a.isTen then f.intLike else none) with
    | some (sg, ds, w') => .atom (.num ⟨['1'], none, some (sg, ds)⟩ w')
    | none => .pow a.merge c w f.merge

/-- the number at the end gets an exponent -/
def Factor.absorb (sg ds w' : List Char) : Factor → Factor
  | .atom (.num n _) => .atom (.num { n with exp := some (sg, ds) } w')
  | .atom a => .atom a
  | .sgn b w f => .sgn b w (f.absorb sg ds w')
  | .pow a c w f => .pow a.merge c w (f.absorb sg ds w')

def Expr.merge (skip : Bool) : Expr → Expr
  | .nil => .nil
  | .cons o f r => if skip then r.merge false else match (if f.absorbs then r.tenHead else none) with
    | some (sg, ds, w) => .cons o (f.absorb sg ds w) (r.merge true)
    | none => .cons o f.merge (r.merge false)

end

/-! ## Where the rewritten expression means the same -/

/-- a number with its signs, a name or a parenthesis -/
def Factor.scalar : Factor → Bool
  | .atom _ => true
  | .sgn _ _ f => f.scalar
  | .pow _ _ _ _ => false

def Op.divides : Op → Bool
  | .slash _ => true
  | .dslash _ => true
  | _ => false

mutual

def Atom.good : Atom → Bool
  | .paren _ e _ => e.good
  | _ => true

def Factor.good : Factor → Bool
  | .atom a => a.good
  | .sgn _ _ f => f.good
  | .pow a _ _ f => a.good && f.good

/-- no number before `* 10 ** k` is a divisor or an exponent -/
def Expr.good : Expr → Bool
  | .nil => true
  | .cons o f r => f.good && (!r.tenHead.isSome || !f.absorbs || (f.scalar && !o.divides)) && r.good

end

/-! ## Tokens -/

theorem atom_head (a : Atom) : (∃ n w, a = .num n w) ∨ (∀ n w, a ≠ .num n w) ∧ ∃ t r, a.toks = t :: r ∧ (∀ n w, t ≠ .num n w) ∧ ((∃ x w, t = .name x w) ∨ ∃ w, t = .sym .lpar w) := by
  cases a with
  | num n w => exact .inl ⟨n, w, rfl⟩
  | name t w => exact .inr ⟨(by intros; simp), _, _, rfl, (by intros; simp), .inl ⟨_, _, rfl⟩⟩
  | paren w e w' => exact .inr ⟨(by intros; simp), _, _, rfl, (by intros; simp), .inr ⟨_, rfl⟩⟩

/-- the first token of a factor -/
theorem factor_head (f : Factor) : ∃ t r, f.toks = t :: r ∧ ((∃ n w, t = .num n w) ∨ (∃ x w, t = .name x w) ∨ (∃ w, t = .sym .lpar w) ∨ (∃ w, t = .sym .plus w) ∨ ∃ w, t = .sym .minus w) := by
  have at' : ∀ a : Atom, ∃ t r, a.toks = t :: r ∧ ((∃ n w, t = .num n w) ∨ (∃ x w, t = .name x w) ∨ (∃ w, t = .sym .lpar w)) := by
    intro a
    cases a with
    | num n w => exact ⟨_, _, rfl, .inl ⟨_, _, rfl⟩⟩
    | name t w => exact ⟨_, _, rfl, .inr (.inl ⟨_, _, rfl⟩)⟩
    | paren w e w' => exact ⟨_, _, rfl, .inr (.inr ⟨_, rfl⟩)⟩
  cases f with
  | atom a =>
    obtain ⟨t, r, e, h⟩ := at' a
    exact ⟨t, r, e, by rcases h with h | h | h <;> simp [h]⟩
  | sgn b w f => cases b <;> exact ⟨_, _, rfl, by simp⟩
  | pow a c w f =>
    obtain ⟨t, r, e, h⟩ := at' a
    exact ⟨t, _, by rw [Factor.toks, e]; rfl, by rcases h with h | h | h <;> simp [h]⟩

/-- what follows an expression or closes it -/
def closed (u : List Tok) : Bool := match u with
  | [] => true
  | .sym .rpar _ :: _ => true
  | _ => false

theorem startsPow_factor (f : Factor) (u : List Tok) : startsPow (f.toks ++ u) = false := by
  obtain ⟨t, r, e, h⟩ := factor_head f
  rw [e]
  rcases h with ⟨n, w, rfl⟩ | ⟨n, w, rfl⟩ | ⟨w, rfl⟩ | ⟨w, rfl⟩ | ⟨w, rfl⟩ <;> rfl

theorem startsPow_expr (r : Expr) (u : List Tok) (hu : closed u = true) : startsPow (r.toks ++ u) = false := by
  cases r with
  | nil =>
    simp only [Expr.toks, List.nil_append]
    unfold closed at hu
    split at hu
    · rfl
    · rfl
    · cases hu
  | cons o f r =>
    cases o <;> simp only [Expr.toks, Op.toks, List.nil_append, List.cons_append, List.append_assoc]
    case first => exact startsPow_factor _ _
    case juxt => exact startsPow_factor _ _
    all_goals rfl

theorem powInt_none {u : List Tok} (h : startsPow u = false) : powInt u = none := by
  unfold powInt powTok
  split
  · rename_i e
    split at e
    · simp [startsPow] at h
    · simp [startsPow] at h
    · cases e
  · rfl

/-- the exponent of `10` -/
theorem powInt_factor {c : Bool} {w0 : List Char} {f : Factor} {u : List Tok}
    (hs : ∀ sg k w r', expTok (f.toks ++ u) = some (sg, k, w, r') → k.exp ≠ none ∨ startsPow r' = false) :
    powInt (.sym (if c then .caret else .pow) w0 :: (f.toks ++ u)) = f.intLike.map fun p => (p.1, p.2.1, p.2.2, u) := by
  have e0 : powInt (.sym (if c then .caret else .pow) w0 :: (f.toks ++ u)) = (match expTok (f.toks ++ u) with
      | some (sg, k, w, r') => if k.frac = none ∧ k.exp = none then some (sg, k.int, w, r') else none
      | none => none) := powInt_some (by cases c <;> simp)
  rw [e0]
  unfold expTok at hs ⊢
  -- after the signs
  have plain : ∀ (sg : List Char) (h : Factor), (∀ k w r', h.toks ++ u = .num k w :: r' → k.exp ≠ none ∨ startsPow r' = false) →
      (match (match (sg, h.toks ++ u) with
        | (sg, .num k w :: r') => some (sg, k, w, r')
        | _ => none : Option (List Char × Numeral × List Char × List Tok)) with
      | some (sg, k, w, r') => if k.frac = none ∧ k.exp = none then some (sg, k.int, w, r') else none
      | none => none) = h.plain.map fun p => (sg, p.1, p.2, u) := by
    intro sg h hs
    cases h with
    | atom a =>
      cases a with
      | num k w =>
        simp only [Factor.toks, Atom.toks, List.cons_append, List.nil_append, Factor.plain]
        split <;> rfl
      | name => rfl
      | paren => rfl
    | sgn b w f => cases b <;> rfl
    | pow a c w f =>
      cases a with
      | num k w' =>
        have := hs k w' _ rfl
        simp only [Factor.toks, Atom.toks, List.cons_append, List.nil_append, Factor.plain]
        rw [if_neg]
        · rfl
        · rintro ⟨_, he⟩
          rcases this with h | h
          · exact h he
          · cases c <;> simp [startsPow] at h
      | name => rfl
      | paren => rfl
  have neg : ∀ h : Factor, (∀ sg k w r', signTok (h.toks ++ u) = (sg, .num k w :: r') → k.exp ≠ none ∨ startsPow r' = false) →
      (match (match signTok (h.toks ++ u) with
        | (sg, .num k w :: r') => some (sg, k, w, r')
        | _ => none : Option (List Char × Numeral × List Char × List Tok)) with
      | some (sg, k, w, r') => if k.frac = none ∧ k.exp = none then some (sg, k.int, w, r') else none
      | none => none) = h.negPlain.map fun p => (p.1, p.2.1, p.2.2, u) := by
    intro h hs
    by_cases hm : ∃ g, h = .sgn true [] g
    · obtain ⟨g, rfl⟩ := hm
      have e : signTok ((Factor.sgn true [] g).toks ++ u) = (['-'], g.toks ++ u) := rfl
      rw [e]
      rw [e] at hs
      rw [plain ['-'] g (by intro k w r' e; exact hs _ k w r' (by rw [e]))]
      simp only [Factor.negPlain, Option.map_map]
      rfl
    · have e : signTok (h.toks ++ u) = ([], h.toks ++ u) := by
        obtain ⟨t, r, e, ht⟩ := factor_head h
        unfold signTok
        split
        · rename_i e'
          exfalso
          cases h with
          | sgn b w f =>
            simp only [Factor.toks, List.cons_append] at e'
            cases b
            · cases e'
            · injection e' with e1 e2
              injection e1 with _ e1
              subst e1
              exact hm ⟨_, rfl⟩
          | atom a => cases a <;> simp [Factor.toks, Atom.toks] at e'
          | pow a c w f => cases a <;> simp [Factor.toks, Atom.toks] at e'
        · rfl
      rw [e]
      rw [e] at hs
      rw [plain [] h (by intro k w r' e; exact hs _ k w r' (by rw [e]))]
      unfold Factor.negPlain
      split
      · exact absurd ⟨_, rfl⟩ hm
      · rw [Option.map_map]; rfl
  by_cases hp : ∃ g, f = .sgn false [] g
  · obtain ⟨g, rfl⟩ := hp
    have e : plusTok ((Factor.sgn false [] g).toks ++ u) = g.toks ++ u := rfl
    rw [e] at hs ⊢
    exact neg g (by intro sg k w r' e; exact hs sg k w r' (by rw [e]))
  · have e : plusTok (f.toks ++ u) = f.toks ++ u := by
      unfold plusTok
      split
      · rename_i e'
        exfalso
        cases f with
        | sgn b w f =>
          simp only [Factor.toks, List.cons_append] at e'
          cases b
          · injection e' with e1 e2
            injection e1 with _ e1
            subst e1
            exact hp ⟨_, rfl⟩
          · cases e'
        | atom a => cases a <;> simp [Factor.toks, Atom.toks] at e'
        | pow a c w f => cases a <;> simp [Factor.toks, Atom.toks] at e'
      · rfl
    rw [e] at hs ⊢
    have hi : f.intLike = f.negPlain := by
      unfold Factor.intLike
      split
      · exact absurd ⟨_, rfl⟩ hp
      · rfl
    rw [hi]
    exact neg f (by intro sg k w r' e; exact hs sg k w r' (by rw [e]))

theorem safe_ten_exp {c : Bool} {w0 : List Char} {r : List Tok} (h : safeHere .ten (.sym (if c then .caret else .pow) w0 :: r) = true) :
    ∀ sg k w r', expTok r = some (sg, k, w, r') → k.exp ≠ none ∨ startsPow r' = false := by
  intro sg k w r' e
  have e' : powTok (.sym (if c then .caret else .pow) w0 :: r) = some (sg, k, w, r') := by cases c <;> exact e
  simp only [safeHere, Bool.and_eq_true, e'] at h
  have := h.2
  simp at this
  exact this.2

/-- `* 10 ** k` after an expression -/
theorem tenTail_expr {r : Expr} {u : List Tok} (hu : closed u = true) (hs : safe (r.toks ++ u) = true) :
    tenTail (r.toks ++ u) = match r with
      | .cons o f r' => (Expr.cons o f r').tenHead.map fun p => (p.1, p.2.1, p.2.2, r'.toks ++ u)
      | .nil => none := by
  have closedNone : ∀ u, closed u = true → tenTail u = none := by
    intro u hu
    unfold closed at hu
    split at hu
    · rfl
    · rfl
    · cases hu
  cases r with
  | nil => exact closedNone u hu
  | cons o f r =>
    simp only
    have headNone : ∀ u, tenTail (f.toks ++ u) = none := by
      intro u
      obtain ⟨t, r, e, h⟩ := factor_head f
      rw [e]
      rcases h with ⟨n, w, rfl⟩ | ⟨n, w, rfl⟩ | ⟨w, rfl⟩ | ⟨w, rfl⟩ | ⟨w, rfl⟩ <;> rfl
    cases o with
    | first => simp only [Expr.toks, Op.toks, List.nil_append, List.append_assoc]; rw [headNone]; rfl
    | juxt => simp only [Expr.toks, Op.toks, List.nil_append, List.append_assoc]; rw [headNone]; rfl
    | slash w => rfl
    | dslash w => rfl
    | plus w => rfl
    | minus w => rfl
    | star w =>
      simp only [Expr.toks, Op.toks, List.cons_append, List.nil_append, List.append_assoc] at hs ⊢
      cases f with
      | atom a =>
        cases a with
        | num n w' =>
          simp only [Factor.toks, Atom.toks, List.cons_append, List.nil_append, tenTail]
          split
          · rw [powInt_none (startsPow_expr r u hu)]; rfl
          · rfl
        | name => rfl
        | paren => rfl
      | sgn b w f => cases b <;> rfl
      | pow a c w f =>
        cases a with
        | name => rfl
        | paren => rfl
        | num n w' =>
          simp only [Factor.toks, Atom.toks, List.cons_append, List.nil_append, tenTail, Expr.tenHead, Atom.isTen, beq_iff_eq, List.append_assoc]
          split
          · rename_i e
            subst e
            refine powInt_factor (safe_ten_exp (c := c) (w0 := w) ?_)
            simp only [Factor.toks, Atom.toks, List.cons_append, List.nil_append, safe, Bool.and_eq_true, List.append_assoc] at hs
            exact hs.1
          · rfl

/-! ## The rewritten tokens -/

mutual

theorem rewrite_atom (a : Atom) (u : List Tok) (ha : ∀ n w, a ≠ .num n w) (hs : safe (a.toks ++ u) = true) : rewrite (a.toks ++ u) = a.merge.toks ++ rewrite u := by
  cases a with
  | num n w => exact absurd rfl (ha n w)
  | name t w => rfl
  | paren w e w' =>
    simp only [Atom.toks, List.cons_append, List.append_assoc, List.nil_append, safe] at hs
    simp only [Atom.toks, Atom.merge, List.cons_append, List.append_assoc, List.nil_append, rewrite_sym]
    rw [(rewrite_expr e (.sym .rpar w' :: u) rfl hs).1, rewrite_sym]
  termination_by structural a

theorem rewrite_factor (f : Factor) (u : List Tok) (hu : startsPow u = false) (hs : safe (f.toks ++ u) = true) :
    rewrite (f.toks ++ u) = match (if f.absorbs then tenTail u else none) with
      | some (sg, ds, w, r) => (f.absorb sg ds w).toks ++ rewrite r
      | none => f.merge.toks ++ rewrite u := by
  cases f with
  | atom a =>
    cases a with
    | num n w =>
      simp only [Factor.toks, Atom.toks, List.cons_append, List.nil_append, Factor.absorbs, beq_iff_eq]
      rw [rewrite_num]
      cases hq : (if n.exp = none then tenTail u else none) with
      | some q => rfl
      | none =>
        simp only
        rw [powInt_none hu]
        simp only [ite_self]
        rfl
    | name t w => rfl
    | paren w e w' =>
      have := rewrite_atom (.paren w e w') u (by intros; simp) hs
      exact this
  | sgn b w f =>
    simp only [Factor.toks, List.cons_append, safe] at hs
    simp only [Factor.toks, Factor.absorbs, List.cons_append, rewrite_sym]
    rw [rewrite_factor f u hu hs]
    by_cases hab : f.absorbs = true
    · simp only [hab, if_true]
      cases tenTail u <;> simp [Factor.absorb, Factor.merge, Factor.toks]
    · simp [hab, Factor.merge, Factor.toks]
  | pow a c w f =>
    have hs1 : safe (f.toks ++ u) = true := by
      simp only [Factor.toks, List.append_assoc, List.cons_append] at hs
      have := safe_suffix hs
      simpa only [safe] using this
    have ih := rewrite_factor f u hu hs1
    simp only [Factor.toks, Factor.absorbs, List.append_assoc, List.cons_append]
    -- the base is not taken with the exponent
    have base : (a.isTen && f.intLike.isSome) = false → rewrite (a.toks ++ .sym (if c then .caret else .pow) w :: (f.toks ++ u)) =
        a.merge.toks ++ .sym (if c then .caret else .pow) w :: rewrite (f.toks ++ u) := by
      intro h
      cases a with
      | num n w' =>
        simp only [Atom.toks, List.cons_append, List.nil_append, Atom.merge]
        rw [rewrite_num]
        have t1 : tenTail (.sym (if c then Sym.caret else .pow) w :: (f.toks ++ u)) = none := by cases c <;> rfl
        rw [t1]
        simp only [ite_self]
        by_cases h10 : n = .ten
        · subst h10
          simp only [Factor.toks, Atom.toks, List.cons_append, List.nil_append, safe, Bool.and_eq_true, List.append_assoc] at hs
          rw [if_pos rfl, powInt_factor (safe_ten_exp (c := c) (w0 := w) hs.1)]
          have : f.intLike = none := by simpa [Atom.isTen] using h
          rw [this]
          simp only [Option.map_none, rewrite_sym]
        · rw [if_neg h10]
          simp only [rewrite_sym]
      | name t w' => rfl
      | paren w1 e w2 =>
        have := rewrite_atom (.paren w1 e w2) (.sym (if c then .caret else .pow) w :: (f.toks ++ u)) (by intros; simp)
          (by simpa only [Factor.toks, List.append_assoc, List.cons_append] using hs)
        rw [this, rewrite_sym]
    rcases Bool.eq_false_or_eq_true (a.isTen && f.intLike.isSome) with hb | hb
    rotate_left
    · rw [base hb, ih]
      have hm : (if a.isTen then f.intLike else none) = none := by
        cases h10 : a.isTen with
        | false => rfl
        | true => rw [h10] at hb; simpa using hb
      simp only [hb, Bool.not_false, Bool.true_and]
      cases (if f.absorbs = true then tenTail u else none) with
      | some q => simp [Factor.absorb, Factor.toks]
      | none => simp only [Factor.merge, hm, Factor.toks, List.append_assoc, List.cons_append]
    · simp only [hb]
      simp only [Bool.and_eq_true] at hb
      simp only [Bool.not_true, Bool.false_and, Bool.false_eq_true, if_false]
      cases a with
      | name => simp [Atom.isTen] at hb
      | paren => simp [Atom.isTen] at hb
      | num n w' =>
        simp only [Atom.isTen, beq_iff_eq] at hb
        obtain ⟨rfl, hb⟩ := hb
        rw [Option.isSome_iff_exists] at hb
        obtain ⟨⟨sg, ds, w''⟩, hi⟩ := hb
        simp only [Factor.toks, Atom.toks, List.cons_append, List.nil_append, safe, Bool.and_eq_true, List.append_assoc] at hs
        simp only [Atom.toks, List.cons_append, List.nil_append, Factor.merge, Atom.isTen]
        rw [rewrite_num]
        have t1 : tenTail (.sym (if c then Sym.caret else .pow) w :: (f.toks ++ u)) = none := by cases c <;> rfl
        rw [t1, powInt_factor (safe_ten_exp (c := c) (w0 := w) hs.1), hi]
        rfl
  termination_by structural f

theorem rewrite_expr (r : Expr) (u : List Tok) (hu : closed u = true) (hs : safe (r.toks ++ u) = true) :
    rewrite (r.toks ++ u) = (r.merge false).toks ++ rewrite u ∧
      ∀ o f r', r = .cons o f r' → rewrite (r'.toks ++ u) = (r.merge true).toks ++ rewrite u := by
  cases r with
  | nil => exact ⟨rfl, by intros; contradiction⟩
  | cons o f r =>
    have hs1 : safe (f.toks ++ (r.toks ++ u)) = true := by
      simp only [Expr.toks, List.append_assoc] at hs
      exact safe_suffix hs
    have ih := rewrite_expr r u hu (safe_suffix hs1)
    refine ⟨?_, ?_⟩
    · have hf := rewrite_factor f (r.toks ++ u) (startsPow_expr r u hu) hs1
      have ho : rewrite ((Expr.cons o f r).toks ++ u) = o.toks ++ rewrite (f.toks ++ (r.toks ++ u)) := by
        simp only [Expr.toks, List.append_assoc]
        cases o <;> rfl
      rw [ho, hf]
      simp only [Expr.merge, Bool.false_eq_true, if_false]
      have ht := tenTail_expr (r := r) hu (safe_suffix hs1)
      cases hab : f.absorbs with
      | false => simp only [Bool.false_eq_true, if_false]; rw [ih.1]; simp [Expr.toks]
      | true =>
        simp only [if_true]
        cases r with
        | nil =>
          rw [ht]
          simp only [Expr.tenHead]
          rw [ih.1]
          simp [Expr.toks]
        | cons o' f' r' =>
          rw [ht]
          simp only
          cases hh : (Expr.cons o' f' r').tenHead with
          | none =>
            simp only [Option.map_none]
            rw [ih.1]
            simp [Expr.toks]
          | some p =>
            obtain ⟨sg, ds, w⟩ := p
            simp only [Option.map_some]
            rw [ih.2 o' f' r' rfl]
            simp [Expr.toks]
    · intro o' f' r' e
      cases e
      have : Expr.merge true (.cons o f r) = r.merge false := by rw [Expr.merge]; rfl
      rw [this]
      exact ih.1
  termination_by structural r

end

end Verif.SciNotation
