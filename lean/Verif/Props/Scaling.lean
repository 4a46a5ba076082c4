import Verif.Props.Blocks
import Verif.Props.Mangle
import Verif.Model.Scaling
/-!
# C65: the scaling preprocessor keeps the meaning of an expression
-/

set_option linter.unusedSimpArgs false
set_option linter.unusedVariables false

namespace Verif.Mangle
open Verif.Py Verif.Strings

/-! ## Specification: expressions with scaling factors -/

/-- a name of letters and underscores that begins with a letter -/
def Plain (w : List Char) : Prop := (∃ c t, w = c :: t ∧ c.isAlpha = true) ∧ ∀ c ∈ w, isWord c = true ∧ c.isDigit = false

/-- spaces and tabs -/
def Blank (s : List Char) : Prop := ∀ c ∈ s, c = ' ' ∨ c = '\t'

/-- `2`, `2.5`: digits, perhaps a dot and more digits -/
structure Decimal where
  int : List Char
  frac : Option (List Char)
  deriving DecidableEq

def Decimal.WF (n : Decimal) : Prop :=
  n.int ≠ [] ∧ (∀ c ∈ n.int, c.isDigit = true) ∧ ∀ f, n.frac = some f → f ≠ [] ∧ ∀ c ∈ f, c.isDigit = true

def Decimal.text (n : Decimal) : List Char := n.int ++ (match n.frac with | some f => '.' :: f | none => [])

/-- a factor, blanks and a unit -/
structure Term where
  num : Decimal
  gap : List Char
  unit : List Char
  deriving DecidableEq

def Term.WF (t : Term) : Prop := t.num.WF ∧ Blank t.gap ∧ Plain t.unit

def Term.text (t : Term) : List Char := t.num.text ++ (t.gap ++ t.unit)

/-- a piece of an expression -/
inductive Piece where
  | blank (s : List Char)
  | word (w : List Char)
  | sep (o : List Char)
  | power (o : List Char) (neg : Bool) (n : Decimal)
  | term (t : Term)

/-- what came before, blanks aside -/
inductive After where
  | start | sep | word | power | term
  deriving DecidableEq

/-- the next piece, if any, is an operator or blanks, so that a name ends here -/
def NameEnds : List Piece → Prop
  | [] => True
  | .blank _ :: _ => True
  | .sep _ :: _ => True
  | .power _ _ _ :: _ => True
  | _ => False

/-- the next piece, if any, is an operator that separates or blanks, so that a number ends here -/
def NumberEnds : List Piece → Prop
  | [] => True
  | .blank _ :: _ => True
  | .sep _ :: _ => True
  | _ => False

/-- expressions: names, perhaps raised to a power, and factors with units; a factor comes after a separator, a power after a name, and no name
after a power -/
def Good : After → List Piece → Prop
  | _, [] => True
  | a, .blank s :: ps => s ≠ [] ∧ Blank s ∧ Good a ps
  | a, .word w :: ps => a ≠ .power ∧ Plain w ∧ NameEnds ps ∧ Good .word ps
  | _, .sep o :: ps => o ∈ [['*'], ['/'], ['/', '/'], ['('], [')']] ∧ Good .sep ps
  | a, .power o _ n :: ps => a = .word ∧ (o = ['*', '*'] ∨ o = ['^']) ∧ n.WF ∧ NumberEnds ps ∧ Good .power ps
  | a, .term t :: ps => a = .sep ∧ t.WF ∧ NumberEnds ps ∧ Good .term ps

/-- the text of a piece, with some terms written as identifiers -/
def Piece.show (f : Term → List Char) : Piece → List Char
  | .blank s => s
  | .word w => w
  | .sep o => o
  | .power o neg n => o ++ ((if neg then ['-'] else []) ++ n.text)
  | .term t => f t

/-- the text of an expression, with some terms written as identifiers -/
def showAll (f : Term → List Char) (ps : List Piece) : List Char := ps.flatMap (Piece.show f)

/-- the text of an expression -/
def written (ps : List Piece) : List Char := showAll Term.text ps

/-- the tokens of a piece that begins at a column -/
def Piece.tokens (k : Nat) : Piece → List Token
  | .blank _ => []
  | .word w => [⟨.name, w, k, k + w.length⟩]
  | .sep o => [⟨.op, o, k, k + o.length⟩]
  | .power o neg n => ⟨.op, o, k, k + o.length⟩ ::
      ((if neg then [⟨.op, ['-'], k + o.length, k + o.length + 1⟩] else []) ++
        [⟨.number, n.text, k + o.length + (if neg then 1 else 0), k + o.length + (if neg then 1 else 0) + n.text.length⟩])
  | .term t => [⟨.number, t.num.text, k, k + t.num.text.length⟩,
      ⟨.name, t.unit, k + t.num.text.length + t.gap.length, k + t.num.text.length + t.gap.length + t.unit.length⟩]

/-- the tokens of an expression, as the tokenizer gives them -/
def tokensAt (k : Nat) : List Piece → List Token
  | [] => []
  | p :: ps => p.tokens k ++ tokensAt (k + (p.show Term.text).length) ps

/-- the factors with units of an expression -/
def termsOf (ps : List Piece) : List Term := ps.filterMap (fun p => match p with | .term t => some t | _ => none)

/-- the identifier for a factor and a canonical unit: an underscore, the number with an underscore for its dot, an underscore, the unit -/
def ident (n : Decimal) (unit : List Char) : List Char := '_' :: (n.int ++ (fracCode n.frac ++ '_' :: unit))

/-! ## Replacing one term -/

/-- the term starts here and stands alone -/
def Hit (t : List Char) (prev : Option Char) (s : List Char) : Prop :=
  (∀ c, prev = some c → inBehind c = false) ∧ ∃ r, s = t ++ r ∧ ∀ c r', r = c :: r' → inAhead c = false

theorem termHere_iff (t : List Char) (prev : Option Char) (s : List Char) : termHere t prev s = true ↔ Hit t prev s := by
  unfold termHere Hit behindOk aheadOk
  simp only [Bool.and_eq_true, List.isPrefixOf_iff_prefix]
  constructor
  · rintro ⟨⟨h1, r, rfl⟩, h3⟩
    refine ⟨?_, r, rfl, ?_⟩
    · rintro c rfl; simpa using h1
    · rintro c r' rfl; simpa using h3
  · rintro ⟨h1, r, rfl, h3⟩
    refine ⟨⟨?_, r, rfl⟩, ?_⟩
    · cases prev with
      | none => rfl
      | some c => simpa using h1 c rfl
    · rw [List.drop_left]
      cases r with
      | nil => rfl
      | cons c r => simpa using h3 c r rfl

/-- the character before what follows `x` -/
def lastOf (prev : Option Char) (x : List Char) : Option Char := match x.getLast? with | some c => some c | none => prev

theorem lastOf_cons (prev : Option Char) (c : Char) (x : List Char) : lastOf prev (c :: x) = lastOf (some c) x := by
  unfold lastOf
  cases x with
  | nil => rfl
  | cons d x =>
    rw [List.getLast?_cons_cons]
    cases h : (d :: x).getLast? with
    | none => simp at h
    | some e => rfl

theorem subTerm_miss {t v : List Char} {prev : Option Char} {c : Char} {s : List Char} (h : ¬ Hit t prev (c :: s)) :
    subTerm t v prev 0 (c :: s) = c :: subTerm t v (some c) 0 s := by
  rw [← termHere_iff] at h
  simp only [subTerm, if_neg h]

/-- text in which the term never starts is kept -/
theorem subTerm_skip (t v : List Char) (x rest : List Char) (prev : Option Char)
    (h : ∀ a b, x = a ++ b → b ≠ [] → ¬ Hit t (lastOf prev a) (b ++ rest)) :
    subTerm t v prev 0 (x ++ rest) = x ++ subTerm t v (lastOf prev x) 0 rest := by
  induction x generalizing prev with
  | nil => rfl
  | cons c x ih =>
    have h0 := h [] (c :: x) rfl (by simp)
    rw [List.cons_append, subTerm_miss (by simpa [lastOf] using h0), lastOf_cons, ih]
    · rfl
    · intro a b hx hb
      have := h (c :: a) b (by rw [hx]; rfl) hb
      rwa [lastOf_cons] at this

/-- the rest of a match is skipped -/
theorem subTerm_drop (t v x rest : List Char) (prev : Option Char) :
    subTerm t v prev x.length (x ++ rest) = subTerm t v (lastOf prev x) 0 rest := by
  induction x generalizing prev with
  | nil => rfl
  | cons c x ih =>
    rw [lastOf_cons, ← ih (some c)]
    simp only [List.length_cons, List.cons_append, subTerm]

theorem subTerm_hit {t v rest : List Char} {prev : Option Char} (ht : t ≠ []) (h : Hit t prev (t ++ rest)) :
    subTerm t v prev 0 (t ++ rest) = v ++ subTerm t v (lastOf prev t) 0 rest := by
  cases t with
  | nil => exact absurd rfl ht
  | cons c t =>
    have h' := (termHere_iff _ _ _).mpr h
    rw [List.cons_append] at h' ⊢
    rw [lastOf_cons, ← subTerm_drop (c :: t) v t rest (some c)]
    simp only [subTerm, if_pos h', List.length_cons, Nat.add_sub_cancel]

/-! ## The shape of terms -/

theorem span_unique {P : Char → Prop} {a x b y : List Char} (h : a ++ x = b ++ y) (ha : ∀ c ∈ a, P c) (hb : ∀ c ∈ b, P c)
    (hx : ∀ c r, x = c :: r → ¬ P c) (hy : ∀ c r, y = c :: r → ¬ P c) : a = b ∧ x = y := by
  induction a generalizing b with
  | nil =>
    cases b with
    | nil => exact ⟨rfl, h⟩
    | cons d b => exact absurd (hb d (by simp)) (hx d (b ++ y) (by simpa using h))
  | cons c a ih =>
    cases b with
    | nil => exact absurd (ha c (by simp)) (hy c (a ++ x) (by simpa using h.symm))
    | cons d b =>
      simp only [List.cons_append, List.cons.injEq] at h
      obtain ⟨h1, h2⟩ := ih h.2 (fun e he => ha e (by simp [he])) (fun e he => hb e (by simp [he]))
      exact ⟨by rw [h.1, h1], h2⟩

theorem digit_not_alpha {c : Char} (h : c.isAlpha = true) : c.isDigit = false := by
  cases hd : c.isDigit with
  | false => rfl
  | true =>
    simp only [Char.isAlpha, Char.isUpper, Char.isLower, Char.isDigit, Bool.or_eq_true, Bool.and_eq_true, decide_eq_true_eq] at h hd
    have h9 : c.val ≤ 57 := hd.2
    rcases h with ⟨h1, -⟩ | ⟨h1, -⟩
    · have h1 : (65 : UInt32) ≤ c.val := h1
      exact absurd (UInt32.le_trans h1 h9) (by decide)
    · have h1 : (97 : UInt32) ≤ c.val := h1
      exact absurd (UInt32.le_trans h1 h9) (by decide)

theorem alpha_not {c : Char} (h : c.isAlpha = true) : c ≠ '_' ∧ c ≠ '.' ∧ c ≠ ' ' ∧ c ≠ '\t' := by
  refine ⟨?_, ?_, ?_, ?_⟩ <;> rintro rfl <;> exact absurd h (by decide)

/-- the text of a number consists of digits and dots -/
theorem decimal_ahead (n : Decimal) (h : n.WF) : ∀ c ∈ n.text, inAhead c = true := by
  intro c hc
  unfold Decimal.text at hc
  rcases List.mem_append.mp hc with hc | hc
  · simp [inAhead, h.2.1 c hc]
  · cases hf : n.frac with
    | none => simp [hf] at hc
    | some f =>
      simp only [hf, List.mem_cons] at hc
      rcases hc with rfl | hc
      · decide
      · simp [inAhead, (h.2.2 f hf).2 c hc]

theorem ahead_behind {c : Char} (h : inAhead c = true) : inBehind c = true := by
  simp only [inAhead, Bool.or_eq_true] at h
  simp only [inBehind, Bool.or_eq_true]
  rcases h with h | h
  · exact Or.inl (Or.inr h)
  · exact Or.inr h

/-- what follows the number in a term: a blank or a letter -/
theorem term_rest (t : Term) (h : t.WF) : ∃ c r, t.gap ++ t.unit = c :: r ∧ inAhead c = false ∧ c ≠ '_' := by
  obtain ⟨-, hg, ⟨⟨d, w, hd, hal⟩, -⟩⟩ := h
  cases hgap : t.gap with
  | nil =>
    refine ⟨d, w, by simpa using hd, ?_, (alpha_not hal).1⟩
    simp [inAhead, digit_not_alpha hal, (alpha_not hal).2.1]
  | cons c g =>
    refine ⟨c, g ++ t.unit, rfl, ?_, ?_⟩ <;> rcases hg c (by rw [hgap]; simp) with rfl | rfl <;> decide

theorem term_rest_not (t : Term) (h : t.WF) (y : List Char) : ∀ c r, t.gap ++ t.unit ++ y = c :: r → ¬ inAhead c = true := by
  obtain ⟨c, r, h1, h2, -⟩ := term_rest t h
  intro c' r' h'
  rw [h1] at h'
  simp only [List.cons_append, List.cons.injEq] at h'
  rw [← h'.1, h2]; simp

/-- a term begins with digits, and then comes something else that is not an underscore -/
theorem term_digits (t : Term) (h : t.WF) : ∃ ds c y, t.text = ds ++ c :: y ∧ ds ≠ [] ∧ (∀ d ∈ ds, d.isDigit = true) ∧ c.isDigit = false ∧ c ≠ '_' := by
  obtain ⟨c, r, h1, h2, h3⟩ := term_rest t h
  unfold Term.text Decimal.text
  rw [h1]
  cases hf : t.num.frac with
  | none =>
    refine ⟨t.num.int, c, r, by simp, h.1.1, h.1.2.1, ?_, h3⟩
    simp only [inAhead, Bool.or_eq_false_iff] at h2; exact h2.1
  | some f => exact ⟨t.num.int, '.', f ++ c :: r, by simp, h.1.1, h.1.2.1, by decide, by decide⟩

theorem term_ne (t : Term) (h : t.WF) : t.text ≠ [] := by
  obtain ⟨ds, c, y, h1, -⟩ := term_digits t h
  rw [h1]; simp

theorem term_head (t : Term) (h : t.WF) : ∃ d y, t.text = d :: y ∧ d.isDigit = true := by
  obtain ⟨ds, c, y, h1, h2, h3, -⟩ := term_digits t h
  cases ds with
  | nil => exact absurd rfl h2
  | cons d ds => exact ⟨d, ds ++ c :: y, by rw [h1]; rfl, h3 d (by simp)⟩

/-! ## Where a term does not start -/

theorem lastOf_append (prev : Option Char) (a b : List Char) : lastOf prev (a ++ b) = lastOf (lastOf prev a) b := by
  induction a generalizing prev with
  | nil => rfl
  | cons c a ih => rw [List.cons_append, lastOf_cons, lastOf_cons, ih]

theorem lastOf_mem (prev : Option Char) (a : List Char) (h : a ≠ []) : ∃ c ∈ a, lastOf prev a = some c := by
  refine ⟨a.getLast h, List.getLast_mem h, ?_⟩
  unfold lastOf
  rw [List.getLast?_eq_some_getLast h]

theorem skip_noDigit (t : Term) (ht : t.WF) (v x rest : List Char) (prev : Option Char) (hx : ∀ c ∈ x, c.isDigit = false) :
    subTerm t.text v prev 0 (x ++ rest) = x ++ subTerm t.text v (lastOf prev x) 0 rest := by
  apply subTerm_skip
  rintro a b rfl hb ⟨-, r, h, -⟩
  obtain ⟨d, y, hd, hdig⟩ := term_head t ht
  cases b with
  | nil => exact hb rfl
  | cons c b =>
    rw [hd] at h
    simp only [List.cons_append, List.cons.injEq] at h
    have := hx c (by simp)
    rw [h.1, hdig] at this
    cases this

theorem skip_number (t : Term) (v : List Char) (n : Decimal) (hn : n.WF) (rest : List Char) (prev : Option Char) (h0 : ¬ Hit t.text prev (n.text ++ rest)) :
    subTerm t.text v prev 0 (n.text ++ rest) = n.text ++ subTerm t.text v (lastOf prev n.text) 0 rest := by
  apply subTerm_skip
  intro a b hab hb hhit
  cases a with
  | nil =>
    rw [List.nil_append] at hab
    rw [← hab] at hhit
    exact h0 hhit
  | cons c a =>
    obtain ⟨d, hd, hl⟩ := lastOf_mem prev (c :: a) (by simp)
    have h1 := hhit.1 d hl
    have h2 := ahead_behind (decimal_ahead n hn d (by rw [hab]; exact List.mem_append_left _ hd))
    rw [h1] at h2; cases h2

theorem skip_digits (t : Term) (ht : t.WF) (v es y : List Char) (prev : Option Char) (he : ∀ d ∈ es, d.isDigit = true) :
    subTerm t.text v prev 0 (es ++ '_' :: y) = es ++ subTerm t.text v (lastOf prev es) 0 ('_' :: y) := by
  apply subTerm_skip
  rintro a b rfl hb ⟨-, r, h, -⟩
  obtain ⟨ds, c, w, h1, h2, h3, h4, h5⟩ := term_digits t ht
  rw [h1, List.append_assoc] at h
  obtain ⟨-, h7⟩ := span_unique (P := fun c => c.isDigit = true) h (fun d hd => he d (by simp [hd])) h3
    (by rintro d r' hr; simp only [List.cons.injEq] at hr; rw [← hr.1]; decide)
    (by rintro d r' hr; simp only [List.cons_append, List.cons.injEq] at hr; rw [← hr.1, h4]; simp)
  simp only [List.cons_append, List.cons.injEq] at h7
  exact h5 h7.1.symm

theorem skip_ident (t : Term) (ht : t.WF) (v : List Char) (n : Decimal) (hn : n.WF) (u : List Char) (hu : Plain u) (rest : List Char) (prev : Option Char) :
    subTerm t.text v prev 0 (ident n u ++ rest) = ident n u ++ subTerm t.text v (lastOf prev (ident n u)) 0 rest := by
  have hU : ∀ prev, subTerm t.text v prev 0 ('_' :: (u ++ rest)) = '_' :: (u ++ subTerm t.text v (lastOf prev ('_' :: u)) 0 rest) := by
    intro prev
    have := skip_noDigit t ht v ('_' :: u) rest prev (by
      intro c hc
      rcases List.mem_cons.mp hc with rfl | hc
      · decide
      · exact (hu.2 c hc).2)
    simpa using this
  have h1 : ∀ prev z, subTerm t.text v prev 0 ('_' :: z) = '_' :: subTerm t.text v (some '_') 0 z := by
    intro prev z
    have := skip_noDigit t ht v ['_'] z prev (by simp)
    simpa [lastOf] using this
  unfold ident
  simp only [List.cons_append, List.append_assoc]
  rw [h1, lastOf_cons]
  congr 1
  cases hf : n.frac with
  | none =>
    simp only [fracCode, List.nil_append]
    rw [skip_digits t ht v _ _ _ hn.2.1, hU, lastOf_append]
  | some f =>
    simp only [fracCode, List.cons_append]
    rw [skip_digits t ht v _ _ _ hn.2.1, h1, skip_digits t ht v _ _ _ (hn.2.2 f hf).2, hU, lastOf_append, lastOf_cons, lastOf_cons, lastOf_append, lastOf_cons]

/-! ## What follows a number or a power -/

theorem sep_chars {o : List Char} (h : o ∈ [['*'], ['/'], ['/', '/'], ['('], [')']]) :
    o ≠ [] ∧ ∀ c ∈ o, inBehind c = false ∧ inAhead c = false ∧ isWord c = false ∧ c.isDigit = false ∧ c ≠ ' ' ∧ c ≠ '\t' := by
  simp only [List.mem_cons, List.not_mem_nil, or_false] at h
  rcases h with rfl | rfl | rfl | rfl | rfl <;> refine ⟨by simp, ?_⟩ <;> decide

theorem blank_chars {c : Char} (h : c = ' ' ∨ c = '\t') : inBehind c = false ∧ inAhead c = false ∧ isWord c = false ∧ c.isDigit = false := by
  rcases h with rfl | rfl <;> decide

/-- a number is followed by nothing that could belong to it -/
theorem numberEnds_head (f : Term → List Char) (a : After) (ps : List Piece) (h : NumberEnds ps) (hg : Good a ps) :
    ∀ c r, showAll f ps = c :: r → inAhead c = false ∧ isWord c = false := by
  intro c r he
  cases ps with
  | nil => simp [showAll] at he
  | cons p ps =>
    cases p with
    | blank s =>
      obtain ⟨h1, h2, -⟩ := hg
      cases s with
      | nil => exact absurd rfl h1
      | cons d s =>
        simp only [showAll, List.flatMap_cons, Piece.show, List.cons_append, List.cons.injEq] at he
        have := blank_chars (h2 d (by simp))
        rw [← he.1]; exact ⟨this.2.1, this.2.2.1⟩
    | sep o =>
      obtain ⟨h1, h2⟩ := sep_chars hg.1
      cases o with
      | nil => exact absurd rfl h1
      | cons d s =>
        simp only [showAll, List.flatMap_cons, Piece.show, List.cons_append, List.cons.injEq] at he
        have := h2 d (by simp)
        rw [← he.1]; exact ⟨this.2.1, this.2.2.1⟩
    | word w => exact absurd h (by simp [NumberEnds])
    | power o b n => exact absurd h (by simp [NumberEnds])
    | term t => exact absurd h (by simp [NumberEnds])

/-- no name follows a power -/
theorem power_next (f : Term → List Char) (ps : List Piece) (hg : Good .power ps) (g : List Char) (c : Char) (r : List Char)
    (hb : Blank g) (h : showAll f ps = g ++ c :: r) (hc : c.isAlpha = true) : False := by
  induction ps generalizing g with
  | nil => simp [showAll] at h
  | cons p ps ih =>
    cases p with
    | blank s =>
      obtain ⟨-, h2, h3⟩ := hg
      simp only [showAll, List.flatMap_cons, Piece.show] at h
      -- strip the blanks
      have : ∀ (s g : List Char), Blank s → Blank g → s ++ showAll f ps = g ++ c :: r → ∃ g', Blank g' ∧ showAll f ps = g' ++ c :: r := by
        intro s
        induction s with
        | nil => intro g _ hg h; exact ⟨g, hg, h⟩
        | cons d s ihs =>
          intro g hs hg h
          cases g with
          | nil =>
            simp only [List.cons_append, List.nil_append, List.cons.injEq] at h
            rcases hs d (by simp) with e | e
            · exact absurd (h.1.symm.trans e) (alpha_not hc).2.2.1
            · exact absurd (h.1.symm.trans e) (alpha_not hc).2.2.2
          | cons e g =>
            simp only [List.cons_append, List.cons.injEq] at h
            exact ihs g (fun x hx => hs x (by simp [hx])) (fun x hx => hg x (by simp [hx])) h.2
      obtain ⟨g', hg', h'⟩ := this s g h2 hb h
      exact ih h3 g' hg' h'
    | sep o =>
      obtain ⟨h1, h2⟩ := sep_chars hg.1
      cases o with
      | nil => exact h1 rfl
      | cons d s =>
        simp only [showAll, List.flatMap_cons, Piece.show, List.cons_append] at h
        have hd := h2 d (by simp)
        cases g with
        | nil =>
          simp only [List.nil_append, List.cons.injEq] at h
          have := hd.2.2.1
          rw [h.1] at this
          simp [isWord, Char.isAlphanum, hc] at this
        | cons e g =>
          simp only [List.cons_append, List.cons.injEq] at h
          rcases hb e (by simp) with h3 | h3
          · exact hd.2.2.2.2.1 (h.1.trans h3)
          · exact hd.2.2.2.2.2 (h.1.trans h3)
    | word w => exact hg.1 rfl
    | power o b n => exact absurd hg.1 (by decide)
    | term t => exact absurd hg.1 (by decide)

/-! ## Replacing one term in an expression -/

/-- terms in `D` are written as identifiers -/
def partly (canon : List Char → List Char) (D : Term → Bool) (t : Term) : List Char := if D t then ident t.num (canon t.unit) else t.text

theorem plain_noDigit {w : List Char} (h : Plain w) : ∀ c ∈ w, c.isDigit = false := fun c hc => (h.2 c hc).2

/-- a term that starts where another one stands is a beginning of it -/
theorem hit_prefix (t u : Term) (ht : t.WF) (hu : u.WF) (z : List Char) (hz : ∀ c r, z = c :: r → inAhead c = false ∧ isWord c = false)
    (prev : Option Char) (h : Hit t.text prev (u.text ++ z)) : t.text <+: u.text := by
  obtain ⟨-, r, h, -⟩ := h
  unfold Term.text at h ⊢
  have h : u.num.text ++ (u.gap ++ u.unit ++ z) = t.num.text ++ (t.gap ++ t.unit ++ r) := by simpa using h
  obtain ⟨h1, h2⟩ := span_unique (P := fun c => inAhead c = true) h (decimal_ahead _ hu.1) (decimal_ahead _ ht.1)
    (term_rest_not u hu z) (term_rest_not t ht r)
  rw [h1]
  rw [List.append_assoc, List.append_assoc] at h2
  have halpha : ∀ (w y : List Char), Plain w → ∀ c r, w ++ y = c :: r → ¬ (c = ' ' ∨ c = '\t') := by
    intro w y hw c r' he
    obtain ⟨⟨d, w', rfl, hal⟩, -⟩ := hw
    simp only [List.cons_append, List.cons.injEq] at he
    rw [← he.1]
    have := alpha_not hal
    rintro (e | e)
    · exact this.2.2.1 e
    · exact this.2.2.2 e
  obtain ⟨h3, h4⟩ := span_unique (P := fun c => c = ' ' ∨ c = '\t') h2 hu.2.1 ht.2.1 (halpha _ z hu.2.2) (halpha _ r ht.2.2)
  rw [h3]
  have h5 : t.unit <+: u.unit := by
    rcases List.append_eq_append_iff.mp h4 with ⟨c, e1, e2⟩ | ⟨c, e1, e2⟩
    · cases c with
      | nil => rw [e1]; simp
      | cons d c =>
        have := hz d (c ++ r) (by rw [e2]; rfl)
        have hw := (ht.2.2.2 d (by rw [e1]; simp)).1
        rw [this.2] at hw; cases hw
    · exact ⟨c, e1.symm⟩
  exact (List.prefix_append_right_inj _).mpr ((List.prefix_append_right_inj _).mpr h5)

/-- replacing one term: its occurrences as a factor with a unit become identifiers, nothing else changes -/
theorem subTerm_all (canon : List Char → List Char) (t : Term) (ht : t.WF) (D D' : Term → Bool) (hD : ∀ u, D' u = (D u || decide (u = t)))
    (ps : List Piece) (hc : ∀ u ∈ termsOf ps, Plain (canon u.unit)) (hp : ∀ u ∈ termsOf ps, t.text <+: u.text → u = t) (a : After) (hg : Good a ps)
    (prev : Option Char) (ha : a = .sep → ∀ c, prev = some c → inBehind c = false) :
    subTerm t.text (ident t.num (canon t.unit)) prev 0 (showAll (partly canon D) ps) = showAll (partly canon D') ps := by
  induction ps generalizing a prev with
  | nil => rfl
  | cons p ps ih =>
    have hs : ∀ f, showAll f (p :: ps) = p.show f ++ showAll f ps := fun f => by simp [showAll]
    rw [hs, hs]
    cases p with
    | blank s =>
      obtain ⟨h1, h2, h3⟩ := hg
      simp only [Piece.show]
      rw [skip_noDigit t ht _ s _ _ (fun c hc => (blank_chars (h2 c hc)).2.2.2), ih hc hp a h3]
      intro _ c hcc
      obtain ⟨d, hd, hl⟩ := lastOf_mem prev s h1
      rw [hl] at hcc; cases hcc
      exact (blank_chars (h2 _ hd)).1
    | word w =>
      obtain ⟨h1, h2, h3, h4⟩ := hg
      simp only [Piece.show]
      rw [skip_noDigit t ht _ w _ _ (plain_noDigit h2), ih hc hp .word h4 _ (fun h => by cases h)]
    | sep o =>
      obtain ⟨h1, h2⟩ := hg
      obtain ⟨h3, h4⟩ := sep_chars h1
      simp only [Piece.show]
      rw [skip_noDigit t ht _ o _ _ (fun c hc => (h4 c hc).2.2.2.1), ih hc hp .sep h2]
      intro _ c hcc
      obtain ⟨d, hd, hl⟩ := lastOf_mem prev o h3
      rw [hl] at hcc; cases hcc
      exact (h4 _ hd).1
    | power o neg n =>
      obtain ⟨h1, h2, h3, h4, h5⟩ := hg
      simp only [Piece.show, List.append_assoc]
      rw [skip_noDigit t ht _ o _ _ (by rcases h2 with rfl | rfl <;> decide),
        skip_noDigit t ht _ _ _ _ (by cases neg <;> decide), skip_number t _ n h3, ih hc hp .power h5 _ (fun h => by cases h)]
      rintro ⟨-, r, h, -⟩
      unfold Term.text at h
      rw [List.append_assoc] at h
      obtain ⟨-, h7⟩ := span_unique (P := fun c => inAhead c = true) h (decimal_ahead _ h3) (decimal_ahead _ ht.1)
        (fun c r hcr => by simp [(numberEnds_head _ _ _ h4 h5 c r hcr).1]) (term_rest_not t ht r)
      obtain ⟨d, w, hd, hal⟩ := ht.2.2.1
      rw [hd, List.append_assoc, List.cons_append] at h7
      exact power_next _ ps h5 t.gap d _ ht.2.1 h7 hal
    | term u =>
      obtain ⟨h1, h2, h3, h4⟩ := hg
      have hc' : ∀ u ∈ termsOf ps, Plain (canon u.unit) := fun x hx => hc x (by simp only [termsOf, List.filterMap_cons]; exact List.mem_cons_of_mem _ hx)
      have hp' : ∀ u ∈ termsOf ps, t.text <+: u.text → u = t := fun x hx => hp x (by simp only [termsOf, List.filterMap_cons]; exact List.mem_cons_of_mem _ hx)
      have hcu := hc u (by simp [termsOf])
      have hpu := hp u (by simp [termsOf])
      have hrec := fun prev => ih hc' hp' .term h4 prev (fun h => by cases h)
      simp only [Piece.show]
      by_cases hDu : D u = true
      · have e1 : partly canon D u = ident u.num (canon u.unit) := by simp [partly, hDu]
        have e2 : partly canon D' u = ident u.num (canon u.unit) := by simp [partly, hD, hDu]
        rw [e1, e2, skip_ident t ht _ _ h2.1 _ hcu, hrec]
      · have e1 : partly canon D u = u.text := by simp [partly, hDu]
        have hends := numberEnds_head (partly canon D) _ _ h3 h4
        rw [e1]
        by_cases hut : u = t
        · subst hut
          have e2 : partly canon D' u = ident u.num (canon u.unit) := by simp [partly, hD]
          rw [e2, subTerm_hit (term_ne u h2) ⟨fun c hcc => ha h1 c hcc, _, rfl, fun c r h => (hends c r h).1⟩, hrec]
        · have e2 : partly canon D' u = u.text := by simp [partly, hD, hDu, hut]
          rw [e2]
          have hno : ¬ Hit t.text prev (u.num.text ++ (u.gap ++ u.unit ++ showAll (partly canon D) ps)) := by
            intro hh
            apply hut
            apply hpu
            apply hit_prefix t u ht h2 _ hends prev
            unfold Term.text at hh ⊢
            rw [List.append_assoc]
            exact hh
          unfold Term.text
          rw [List.append_assoc, ← Term.text, skip_number t _ u.num h2.1 _ _ hno, skip_noDigit t ht _ (u.gap ++ u.unit), hrec]
          · simp
          · intro c hcc
            rcases List.mem_append.mp hcc with hcc | hcc
            · exact (blank_chars (h2.2.1 c hcc)).2.2.2
            · exact plain_noDigit h2.2.2 c hcc

/-! ## The identifier of a term -/

/-- what is found for a term -/
def Term.todo (t : Term) : Todo := ⟨t.text, t.num.text, some t.unit⟩

def Decimal.numeral (n : Decimal) : Numeral := ⟨false, n.int, n.frac, none⟩

theorem plain_noCode {u : List Char} (h : ∀ c ∈ u, c.isDigit = false) : ¬ HasCode u := by
  rintro ⟨d, hd, a, b, e⟩
  have := h d (by rw [← e]; simp)
  rw [hd] at this; cases this

theorem plain_isName {u : List Char} (h : Plain u) : IsName u := ⟨h.1, fun c hc => (h.2 c hc).1, plain_noCode (plain_noDigit h)⟩

theorem mangle_term (t : Term) (h : t.WF) (name : List Char) (hn : Plain name) : mangle t.text (some (t.unit, name)) = ident t.num name := by
  have hnum : t.num.numeral.WF := ⟨h.1.1, h.1.2.1, h.1.2.2, by intro e s ds he; cases he⟩
  have htext : t.num.numeral.text = t.num.text := by cases hf : t.num.frac <;> simp [Numeral.text, Decimal.text, Decimal.numeral, hf]
  have hkeep : ∀ s : List Char, (∀ c ∈ s, c ≠ '+' ∧ isSpace c = false) → squeeze s = s := by
    intro s hs
    unfold squeeze
    rw [List.filter_eq_self]
    intro c hc
    obtain ⟨h1, h2⟩ := hs c hc
    simp only [isSpace, Bool.or_eq_false_iff, beq_eq_false_iff_ne] at h2
    simp [h1, h2]
  have hsq : squeeze t.text = t.num.text ++ t.unit := by
    have happ : ∀ a b, squeeze (a ++ b) = squeeze a ++ squeeze b := fun a b => by simp [squeeze]
    unfold Term.text
    rw [happ, happ, hkeep t.num.text, hkeep t.unit]
    · have : squeeze t.gap = [] := by
        unfold squeeze
        rw [List.filter_eq_nil_iff]
        intro c hc
        rcases h.2.1 c hc with rfl | rfl <;> decide
      rw [this]; rfl
    · intro c hc
      have := word_noMinus (h.2.2.2 c hc).1
      exact ⟨this.2.2.1, this.2.2.2⟩
    · intro c hc
      have hc := decimal_ahead _ h.1 c hc
      simp only [inAhead, Bool.or_eq_true] at hc
      rcases hc with hc | hc
      · have := word_noMinus (c := c) (by simp [isWord, Char.isAlphanum, hc])
        exact ⟨this.2.2.1, this.2.2.2⟩
      · rw [beq_iff_eq] at hc; subst hc; decide
  have hmin : '-' ∉ t.num.text ++ t.unit := by
    intro hm
    rcases List.mem_append.mp hm with hm | hm
    · exact absurd (decimal_ahead _ h.1 _ hm) (by decide)
    · exact absurd (h.2.2.2 _ hm).1 (by decide)
  have hund : '_' ∉ t.num.text := fun hm => absurd (decimal_ahead _ h.1 _ hm) (by decide)
  rw [mangle_unit t.num.numeral hnum t.text t.num.text t.unit name hsq (by rw [htext]; exact separated_self hund)
    (by
      rw [hsq]
      rintro ⟨a, b, e⟩
      exact hmin (by rw [← e]; simp))
    (plain_isName h.2.2) (by intro e s ds y he; cases he) (plain_isName hn)]
  simp [Numeral.code, Decimal.numeral, ident, expCode]

/-- different numbers or units have different identifiers -/
theorem ident_inj {n n' : Decimal} {u u' : List Char} (hn : n.WF) (hn' : n'.WF) (hu : Plain u) (hu' : Plain u') (h : ident n u = ident n' u') :
    n = n' ∧ u = u' := by
  obtain ⟨i, f⟩ := n
  obtain ⟨i', f'⟩ := n'
  unfold ident at h
  simp only [List.cons.injEq, true_and] at h
  have hhead : ∀ (f : Option (List Char)) (u : List Char), ∀ c r, fracCode f ++ '_' :: u = c :: r → ¬ c.isDigit = true := by
    intro f u c r he
    cases f with
    | none => simp only [fracCode, List.nil_append, List.cons.injEq] at he; rw [← he.1]; decide
    | some f => simp only [fracCode, List.cons_append, List.cons.injEq] at he; rw [← he.1]; decide
  obtain ⟨rfl, h2⟩ := span_unique (P := fun c => c.isDigit = true) h hn.2.1 hn'.2.1 (hhead f u) (hhead f' u')
  have hno : ∀ (f u u' : List Char), f ≠ [] → (∀ c ∈ f, c.isDigit = true) → Plain u → '_' :: u = '_' :: (f ++ '_' :: u') → False := by
    intro f u u' h1 h3 ⟨⟨c, w, hc, hal⟩, _⟩ he
    simp only [List.cons.injEq, true_and] at he
    cases f with
    | nil => exact h1 rfl
    | cons d f =>
      rw [hc] at he
      simp only [List.cons_append, List.cons.injEq] at he
      have := h3 d (by simp)
      rw [← he.1, digit_not_alpha hal] at this
      cases this
  cases f with
  | none =>
    cases f' with
    | none => simp only [fracCode, List.nil_append, List.cons.injEq, true_and] at h2; exact ⟨rfl, h2⟩
    | some f' =>
      simp only [fracCode, List.nil_append, List.cons_append] at h2
      obtain ⟨h3, h4⟩ := hn'.2.2 f' rfl
      exact (hno _ _ _ h3 h4 hu h2).elim
  | some f =>
    obtain ⟨h3, h4⟩ := hn.2.2 f rfl
    cases f' with
    | none =>
      simp only [fracCode, List.nil_append, List.cons_append] at h2
      exact (hno _ _ _ h3 h4 hu' h2.symm).elim
    | some f' =>
      obtain ⟨h5, h6⟩ := hn'.2.2 f' rfl
      simp only [fracCode, List.cons_append, List.cons.injEq, true_and] at h2
      obtain ⟨rfl, h7⟩ := span_unique (P := fun c => c.isDigit = true) h2 h4 h6
        (by rintro d r' hr; simp only [List.cons.injEq] at hr; rw [← hr.1]; decide)
        (by rintro d r' hr; simp only [List.cons.injEq] at hr; rw [← hr.1]; decide)
      simp only [List.cons.injEq, true_and] at h7
      exact ⟨rfl, h7⟩

/-! ## Replacing all terms -/

/-- the registry: canonical names of units, the value of a number with a unit, and no name that looks like an identifier for a factor -/
structure Fits {Q : Type} (P : Pint Q) (canon : List Char → List Char) (val : Decimal → List Char → Q) (t : Term) : Prop where
  canonical : P.canonical t.unit = .ok (canon t.unit)
  plain : Plain (canon t.unit)
  value : P.value t.text = .ok (val t.num (canon t.unit))
  unknown : P.known (ident t.num (canon t.unit)) = false

/-- identifiers stand for what they say -/
def Consistent {Q : Type} (val : Decimal → List Char → Q) (defs : Defs Q) : Prop :=
  ∀ n u q, n.WF → Plain u → Dict.get? defs (ident n u) = some q → q = val n u

theorem store_all {Q : Type} (P : Pint Q) (canon : List Char → List Char) (val : Decimal → List Char → Q) (ps : List Piece) (hg : Good .start ps)
    (hwf : ∀ t ∈ termsOf ps, t.WF) (hfit : ∀ t ∈ termsOf ps, Fits P canon val t)
    (hpre : ∀ t ∈ termsOf ps, ∀ u ∈ termsOf ps, t.text <+: u.text → u = t)
    (xs : List Todo) (hxs : ∀ x ∈ xs, ∃ t ∈ termsOf ps, x = t.todo) (D D' : Term → Bool) (hD : ∀ u ∈ termsOf ps, D' u = (D u || decide (u.todo ∈ xs)))
    (defs : Defs Q) (hcons : Consistent val defs) :
    ∃ defs', storeAndMangle P defs (showAll (partly canon D) ps) xs = (defs', .ok (showAll (partly canon D') ps)) ∧
      Consistent val defs' ∧ (∀ name q, Dict.get? defs name = some q → Dict.get? defs' name = some q) ∧
      (∀ t ∈ termsOf ps, t.todo ∈ xs → Dict.get? defs' (ident t.num (canon t.unit)) = some (val t.num (canon t.unit))) ∧
      ∀ name, Dict.get? defs' name = Dict.get? defs name ∨ ∃ t ∈ termsOf ps, t.todo ∈ xs ∧ name = ident t.num (canon t.unit) := by
  induction xs generalizing D defs with
  | nil =>
    refine ⟨defs, ?_, hcons, fun _ _ h => h, fun _ _ h => by simp at h, fun _ => Or.inl rfl⟩
    simp only [storeAndMangle]
    congr 2
    unfold showAll
    have : ∀ p ∈ ps, p.show (partly canon D) = p.show (partly canon D') := by
      intro p hp
      cases p with
      | term t =>
        have ht : t ∈ termsOf ps := List.mem_filterMap.mpr ⟨_, hp, rfl⟩
        simp only [Piece.show, partly, hD t ht]
        simp
      | _ => rfl
    clear hg hwf hfit hpre hD hxs
    induction ps with
    | nil => rfl
    | cons p ps ih =>
      rw [List.flatMap_cons, List.flatMap_cons, this p (by simp), ih (fun q hq => this q (by simp [hq]))]
  | cons x xs ih =>
    obtain ⟨t, ht, rfl⟩ := hxs x (by simp)
    have hf := hfit t ht
    have hw := hwf t ht
    have hv : validName P t.todo = .ok (ident t.num (canon t.unit)) := by
      simp only [validName, Term.todo, stripUnit_word t.unit (fun c hc => (hw.2.2.2 c hc).1), hf.canonical, mangle_term t hw _ hf.plain]
    -- the definition
    have hdef : ∃ d1, define P (ident t.num (canon t.unit)) t.text defs = .ok d1 ∧ Consistent val d1 ∧
        (∀ name q, Dict.get? defs name = some q → Dict.get? d1 name = some q) ∧
        Dict.get? d1 (ident t.num (canon t.unit)) = some (val t.num (canon t.unit)) ∧
        ∀ name, Dict.get? d1 name = Dict.get? defs name ∨ name = ident t.num (canon t.unit) := by
      unfold define
      rw [hf.unknown, Bool.false_or]
      cases hgd : Dict.get? defs (ident t.num (canon t.unit)) with
      | some q =>
        refine ⟨defs, by simp, hcons, fun _ _ h => h, ?_, fun _ => Or.inl rfl⟩
        rw [hgd, hcons _ _ _ hw.1 hf.plain hgd]
      | none =>
        refine ⟨Dict.set defs (ident t.num (canon t.unit)) (val t.num (canon t.unit)), by simp [hf.value], ?_, ?_, by simp, ?_⟩
        · intro n u q hn hu hq
          rw [Dict.get?_set] at hq
          split at hq
          · rename_i he
            obtain ⟨rfl, rfl⟩ := ident_inj hn hw.1 hu hf.plain (by first | exact he | exact he.symm)
            simpa using hq.symm
          · exact hcons n u q hn hu hq
        · intro name q hq
          rw [Dict.get?_set]
          split
          · rename_i he
            rw [show name = ident t.num (canon t.unit) from by first | exact he | exact he.symm, hgd] at hq
            cases hq
          · exact hq
        · intro name
          rw [Dict.get?_set]
          split
          · rename_i he
            exact Or.inr (by first | exact he | exact he.symm)
          · exact Or.inl rfl
    obtain ⟨d1, e1, c1, m1, g1, o1⟩ := hdef
    -- the text
    have hsub := subTerm_all canon t hw D (fun u => D u || decide (u = t)) (fun _ => rfl) ps (fun u hu => (hfit u hu).plain) (fun u hu => hpre t ht u hu) .start hg none
      (fun h => by cases h)
    obtain ⟨d2, e2, c2, m2, g2, o2⟩ := ih (fun y hy => hxs y (by simp [hy])) (fun u => D u || decide (u = t)) (by
      intro u hu
      rw [hD u hu, Bool.or_assoc]
      congr 1
      rw [Bool.eq_iff_iff]
      simp only [List.mem_cons, Bool.or_eq_true, decide_eq_true_eq]
      refine or_congr ⟨fun h => ?_, fun h => by rw [h]⟩ Iff.rfl
      have : u.text = t.text := congrArg Todo.term h
      exact hpre t ht u hu (by rw [this]; exact List.prefix_refl _)) d1 c1
    refine ⟨d2, ?_, c2, fun name q h => m2 _ _ (m1 _ _ h), ?_, ?_⟩
    · have ht2 : t.todo.term = t.text := rfl
      simp only [storeAndMangle, hv, ht2, e1, hsub, e2]
    · intro u hu hmem
      rcases List.mem_cons.mp hmem with h | h
      · have : u.text = t.text := congrArg Todo.term h
        have := hpre t ht u hu (by rw [this]; exact List.prefix_refl _)
        subst this
        exact m2 _ _ g1
      · exact g2 u hu h
    · intro name
      rcases o2 name with h | ⟨u, hu, hm, h⟩
      · rcases o1 name with h' | h'
        · exact Or.inl (h.trans h')
        · exact Or.inr ⟨t, ht, by simp, h'⟩
      · exact Or.inr ⟨u, hu, by simp [hm], h⟩

/-! ## Finding the terms -/

/-- a piece as items of the grammar of C53 -/
def Piece.items (k : Nat) : Piece → List Item
  | .blank _ => []
  | .word w => [.tok ⟨.name, w, k, k + w.length⟩]
  | .sep o => [.tok ⟨.op, o, k, k + o.length⟩]
  | .power o neg n => [.power ⟨.op, o, k, k + o.length⟩
      ((if neg then [⟨.op, ['-'], k + o.length, k + o.length + 1⟩] else []) ++
        [⟨.number, n.text, k + o.length + (if neg then 1 else 0), k + o.length + (if neg then 1 else 0) + n.text.length⟩])]
  | .term t => [.tok ⟨.number, t.num.text, k, k + t.num.text.length⟩,
      .tok ⟨.name, t.unit, k + t.num.text.length + t.gap.length, k + t.num.text.length + t.gap.length + t.unit.length⟩]

def itemsAt (k : Nat) : List Piece → List Item
  | [] => []
  | p :: ps => p.items k ++ itemsAt (k + (p.show Term.text).length) ps

theorem items_tokens (k : Nat) (ps : List Piece) : (itemsAt k ps).flatMap Item.tokens = tokensAt k ps := by
  induction ps generalizing k with
  | nil => rfl
  | cons p ps ih =>
    simp only [itemsAt, tokensAt, List.flatMap_append, ih]
    congr 1
    cases p <;> simp [Piece.items, Piece.tokens, Item.tokens]

theorem word_notPow {w : List Char} (h : ∀ c ∈ w, isWord c = true) (k j : Nat) (ty : TokType) : ¬ IsPow ⟨ty, w, k, j⟩ := by
  rintro (e | e)
  · have e : w = ['*', '*'] := e
    subst e; exact absurd (h '*' (by simp)) (by decide)
  · have e : w = ['^'] := e
    subst e; exact absurd (h '^' (by simp)) (by decide)

theorem decimal_notPow (n : Decimal) (h : n.WF) (k j : Nat) (ty : TokType) : ¬ IsPow ⟨ty, n.text, k, j⟩ := by
  have ha := decimal_ahead n h
  rintro (e | e)
  · have e : n.text = ['*', '*'] := e
    exact absurd (ha '*' (by rw [e]; simp)) (by decide)
  · have e : n.text = ['^'] := e
    exact absurd (ha '^' (by rw [e]; simp)) (by decide)

theorem items_valid (k : Nat) (a : After) (ps : List Piece) (hg : Good a ps) : ∀ i ∈ itemsAt k ps, i.Valid := by
  induction ps generalizing k a with
  | nil => simp [itemsAt]
  | cons p ps ih =>
    intro i hi
    simp only [itemsAt, List.mem_append] at hi
    cases p with
    | blank s =>
      rcases hi with hi | hi
      · simp [Piece.items] at hi
      · exact ih _ _ hg.2.2 i hi
    | word w =>
      obtain ⟨-, h2, -, h4⟩ := hg
      rcases hi with hi | hi
      · simp only [Piece.items, List.mem_singleton] at hi
        subst hi
        exact ⟨(fun h => by cases h), word_notPow (fun c hc => (h2.2 c hc).1) _ _ _⟩
      · exact ih _ _ h4 i hi
    | sep o =>
      obtain ⟨h1, h2⟩ := hg
      rcases hi with hi | hi
      · simp only [Piece.items, List.mem_singleton] at hi
        subst hi
        simp only [List.mem_cons, List.not_mem_nil, or_false] at h1
        rcases h1 with rfl | rfl | rfl | rfl | rfl <;> refine ⟨?_, ?_⟩ <;> simp [Known, IsPow]
      · exact ih _ _ h2 i hi
    | power o neg n =>
      obtain ⟨-, h2, h3, -, h5⟩ := hg
      rcases hi with hi | hi
      · simp only [Piece.items, List.mem_singleton] at hi
        subst hi
        refine ⟨rfl, h2, ?_⟩
        cases neg with
        | false => exact Exponent.atom _ (Or.inl rfl)
        | true => exact Exponent.signed _ _ (Or.inl ⟨rfl, rfl⟩) (Or.inl rfl)
      · exact ih _ _ h5 i hi
    | term t =>
      obtain ⟨-, h2, -, h4⟩ := hg
      rcases hi with hi | hi
      · simp only [Piece.items, List.mem_cons, List.not_mem_nil, or_false] at hi
        rcases hi with rfl | rfl
        · exact ⟨(fun h => by cases h), decimal_notPow _ h2.1 _ _ _⟩
        · exact ⟨(fun h => by cases h), word_notPow (fun c hc => (h2.2.2.2 c hc).1) _ _ _⟩
      · exact ih _ _ h4 i hi

/-- the terms with their tokens -/
def blocksAt (k : Nat) : List Piece → List (Term × List Token)
  | [] => []
  | .term t :: ps => (t, (Piece.term t).tokens k) :: blocksAt (k + t.text.length) ps
  | p :: ps => blocksAt (k + (p.show Term.text).length) ps

/-- a block without a factor -/
def Inert (b : List Token) : Prop := ∀ tf input, identifyBlock tf input b = .ok none

theorem isPow_false {t : Token} (h : ¬ IsPow t) : isPow t.text = false := by
  cases hp : isPow t.text with
  | false => rfl
  | true => exact absurd ((isPow_iff t).mp hp) h

theorem inert_nil : Inert [] := fun tf input => rfl

theorem inert_word (w : List Char) (h : Plain w) (k j : Nat) : Inert [⟨.name, w, k, j⟩] := by
  intro tf input
  have := isPow_false (word_notPow (fun c hc => (h.2 c hc).1) k j .name)
  simp only at this
  simp [identifyBlock, firstIdx, this, numbersBefore_eq, numbersFrom]

theorem inert_power (w : List Char) (h : Plain w) (k j : Nat) (o : List Char) (ho : o = ['*', '*'] ∨ o = ['^']) (neg : Bool) (n : Decimal) (i : Nat) :
    Inert (⟨.name, w, k, j⟩ :: (Piece.power o neg n).tokens i) := by
  intro tf input
  have h1 := isPow_false (word_notPow (fun c hc => (h.2 c hc).1) k j .name)
  have h2 : isPow o = true := by rcases ho with rfl | rfl <;> decide
  simp only at h1
  cases neg <;> simp [identifyBlock, Piece.tokens, firstIdx, h1, h2, numbersBefore_eq, numbersFrom]

/-- what may follow when a block is continued -/
def Start (ts : List (Term × List Token)) : After → List Token → Prop
  | .power, b => b = []
  | .word, b => b = [] ∨ (Inert b ∧ beginsName b = true) ∨
      ∃ o neg n k, (o = ['*', '*'] ∨ o = ['^']) ∧ b = (Piece.power o neg n).tokens k
  | .sep, b => b = [] ∨ (Inert b ∧ beginsName b = true) ∨ ∃ t, (t, b) ∈ ts
  | _, b => b = [] ∨ (Inert b ∧ beginsName b = true)

theorem chunks_extra (extra : List Token) (he : ∀ t ∈ extra, t.typ = .other) : chunks (extra.map Item.tok) = [[]] := by
  induction extra with
  | nil => rfl
  | cons t extra ih =>
    have ht := he t (by simp)
    have h1 : ¬ IsSep t := fun h => by rw [h.1] at ht; cases ht
    simp only [List.map_cons, chunks, if_neg h1, ih (fun x hx => he x (by simp [hx]))]
    simp [solid, ht, join, endsName]

/-- the blocks of an expression: those of its terms, and blocks without a factor -/
theorem chunks_pieces (extra : List Token) (he : ∀ t ∈ extra, t.typ = .other) (ps : List Piece) (a : After) (k : Nat) (hg : Good a ps) :
    ∃ b bs, chunks (itemsAt k ps ++ extra.map Item.tok) = b :: bs ∧ Start (blocksAt k ps) a b ∧
      (∀ c ∈ bs, Inert c ∨ ∃ t, (t, c) ∈ blocksAt k ps) ∧ ∀ p ∈ blocksAt k ps, p.2 ∈ bs ∨ (a = .sep ∧ p.2 = b) := by
  induction ps generalizing a k with
  | nil =>
    refine ⟨[], [], by rw [← chunks_extra extra he]; rfl, ?_, by simp, by simp [blocksAt]⟩
    cases a <;> simp [Start]
  | cons p ps ih =>
    cases p with
    | blank s =>
      obtain ⟨b, bs, h1, h2, h3, h4⟩ := ih a (k + s.length) hg.2.2
      exact ⟨b, bs, h1, h2, h3, h4⟩
    | word w =>
      obtain ⟨ha, hw, -, hg'⟩ := hg
      obtain ⟨b, bs, h1, h2, h3, h4⟩ := ih .word (k + w.length) hg'
      have hch : chunks (itemsAt k (.word w :: ps) ++ extra.map Item.tok) = join [⟨.name, w, k, k + w.length⟩] (b :: bs) := by
        simp only [itemsAt, Piece.items, List.cons_append, List.nil_append, chunks, Piece.show, h1]
        rw [if_neg (fun h => by cases h.1)]
        simp [solid]
      have hst : ∀ b, Inert b → beginsName b = true → Start (blocksAt k (.word w :: ps)) a b := by
        intro b h5 h6
        cases a with
        | power => exact absurd rfl ha
        | start => exact Or.inr ⟨h5, h6⟩
        | sep => exact Or.inr (Or.inl ⟨h5, h6⟩)
        | word => exact Or.inr (Or.inl ⟨h5, h6⟩)
        | term => exact Or.inr ⟨h5, h6⟩
      have h4' : ∀ p ∈ blocksAt (k + w.length) ps, p.2 ∈ bs := fun p hp => (h4 p hp).elim id (fun h => by cases h.1)
      rw [hch]
      rcases h2 with rfl | ⟨h5, h6⟩ | ⟨o, neg, n, j, h5, rfl⟩
      · exact ⟨[⟨.name, w, k, k + w.length⟩], bs, by simp [join, endsName, beginsName], hst _ (inert_word w hw _ _) rfl, h3, fun p hp => Or.inl (h4' p hp)⟩
      · refine ⟨[⟨.name, w, k, k + w.length⟩], b :: bs, by simp [join, endsName, h6], hst _ (inert_word w hw _ _) rfl, ?_, ?_⟩
        · intro c hc
          rcases List.mem_cons.mp hc with rfl | hc
          · exact Or.inl h5
          · exact h3 c hc
        · intro p hp
          exact Or.inl (List.mem_cons_of_mem _ (h4' p hp))
      · refine ⟨⟨.name, w, k, k + w.length⟩ :: (Piece.power o neg n).tokens j, bs, by simp [join, endsName, beginsName, Piece.tokens], hst _ (inert_power w hw _ _ o h5 neg n j) rfl,
          h3, fun p hp => Or.inl (h4' p hp)⟩
    | sep o =>
      obtain ⟨ho, hg'⟩ := hg
      obtain ⟨b, bs, h1, h2, h3, h4⟩ := ih .sep (k + o.length) hg'
      have hsep : IsSep ⟨.op, o, k, k + o.length⟩ := ⟨rfl, by simpa using ho⟩
      refine ⟨[], b :: bs, ?_, by cases a <;> simp [Start], ?_, ?_⟩
      · simp only [itemsAt, Piece.items, List.cons_append, List.nil_append, chunks, Piece.show, h1]
        rw [if_pos hsep]
      · intro c hc
        rcases List.mem_cons.mp hc with rfl | hc
        · rcases h2 with rfl | ⟨h5, -⟩ | ⟨t, ht⟩
          · exact Or.inl inert_nil
          · exact Or.inl h5
          · exact Or.inr ⟨t, ht⟩
        · exact h3 c hc
      · intro p hp
        rcases h4 p hp with h | ⟨-, h⟩
        · exact Or.inl (List.mem_cons_of_mem _ h)
        · exact Or.inl (by rw [h]; simp)
    | power o neg n =>
      obtain ⟨rfl, ho, hn, -, hg'⟩ := hg
      obtain ⟨b, bs, h1, h2, h3, h4⟩ := ih .power (k + ((Piece.power o neg n).show Term.text).length) hg'
      have h2 : b = [] := h2
      subst h2
      refine ⟨(Piece.power o neg n).tokens k, bs, ?_, Or.inr (Or.inr ⟨o, neg, n, k, ho, rfl⟩), h3, fun p hp => Or.inl ((h4 p hp).elim id (fun h => by cases h.1))⟩
      have : itemsAt k (.power o neg n :: ps) ++ extra.map Item.tok = (Piece.power o neg n).items k ++ (itemsAt (k + ((Piece.power o neg n).show Term.text).length) ps ++ extra.map Item.tok) := by
        simp [itemsAt]
      rw [this]
      simp only [Piece.items, List.cons_append, List.nil_append, chunks, h1]
      cases neg <;> simp [solid, join, endsName, Piece.tokens, beginsName]
    | term t =>
      obtain ⟨rfl, ht, -, hg'⟩ := hg
      obtain ⟨b, bs, h1, h2, h3, h4⟩ := ih .term (k + t.text.length) hg'
      have h4' : ∀ p ∈ blocksAt (k + t.text.length) ps, p.2 ∈ bs := fun p hp => (h4 p hp).elim id (fun h => by cases h.1)
      have hch : chunks (itemsAt k (.term t :: ps) ++ extra.map Item.tok) =
          join [⟨.number, t.num.text, k, k + t.num.text.length⟩] (join [⟨.name, t.unit, k + t.num.text.length + t.gap.length, k + t.num.text.length + t.gap.length + t.unit.length⟩] (b :: bs)) := by
        simp only [itemsAt, Piece.items, List.cons_append, List.nil_append, chunks, Piece.show, h1]
        rw [if_neg (fun h => by cases h.1), if_neg (fun h => by cases h.1)]
        simp [solid]
      rw [hch]
      have hmem : (t, (Piece.term t).tokens k) ∈ blocksAt k (.term t :: ps) := by simp [blocksAt]
      rcases h2 with rfl | ⟨h5, h6⟩
      · refine ⟨(Piece.term t).tokens k, bs, by simp [join, endsName, beginsName, Piece.tokens], Or.inr (Or.inr ⟨t, hmem⟩), ?_, ?_⟩
        · intro c hc
          rcases h3 c hc with h | ⟨u, hu⟩
          · exact Or.inl h
          · exact Or.inr ⟨u, List.mem_cons_of_mem _ hu⟩
        · intro p hp
          rcases List.mem_cons.mp hp with rfl | hp
          · exact Or.inr ⟨rfl, rfl⟩
          · exact Or.inl (h4' p hp)
      · have hj : ∀ x : Token, x.typ = .name → join [x] (b :: bs) = [x] :: b :: bs := fun x hx => by simp [join, endsName, hx, h6]
        rw [hj _ rfl]
        refine ⟨(Piece.term t).tokens k, b :: bs, by simp [join, endsName, beginsName, Piece.tokens], Or.inr (Or.inr ⟨t, hmem⟩), ?_, ?_⟩
        · intro c hc
          rcases List.mem_cons.mp hc with rfl | hc
          · exact Or.inl h5
          · rcases h3 c hc with h | ⟨u, hu⟩
            · exact Or.inl h
            · exact Or.inr ⟨u, List.mem_cons_of_mem _ hu⟩
        · intro p hp
          rcases List.mem_cons.mp hp with rfl | hp
          · exact Or.inr ⟨rfl, rfl⟩
          · exact Or.inl (List.mem_cons_of_mem _ (h4' p hp))

/-- the tokens of a term lie where the term is written -/
theorem blocks_place (ps : List Piece) (pre : List Char) {t : Term} {c : List Token} (h : (t, c) ∈ blocksAt pre.length ps) :
    ∃ x y, pre ++ written ps = x ++ t.text ++ y ∧ c = (Piece.term t).tokens x.length := by
  have hw : ∀ p ps, written (p :: ps) = p.show Term.text ++ written ps := fun p ps => by simp [written, showAll]
  induction ps generalizing pre with
  | nil => simp [blocksAt] at h
  | cons p ps ih =>
    have hskip : ∀ q : Piece, (t, c) ∈ blocksAt (pre.length + (q.show Term.text).length) ps →
        ∃ x y, pre ++ written (q :: ps) = x ++ t.text ++ y ∧ c = (Piece.term t).tokens x.length := by
      intro q hq
      rw [← List.length_append] at hq
      obtain ⟨x, y, h1, h2⟩ := ih (pre ++ q.show Term.text) hq
      exact ⟨x, y, by rw [hw, ← List.append_assoc]; exact h1, h2⟩
    cases p with
    | term u =>
      simp only [blocksAt, List.mem_cons, Prod.mk.injEq] at h
      rcases h with ⟨rfl, rfl⟩ | h
      · exact ⟨pre, written ps, by rw [hw]; simp [Piece.show], rfl⟩
      · exact hskip (.term u) h
    | blank s => exact hskip (.blank s) h
    | word w => exact hskip (.word w) h
    | sep o => exact hskip (.sep o) h
    | power o neg n => exact hskip (.power o neg n) h

theorem slice_mid (x s y : List Char) : slice (x ++ (s ++ y)) x.length (x.length + s.length) = s := by
  unfold slice
  rw [← List.append_assoc, List.take_append_of_le_length (by simp), List.take_of_length_le (by simp), List.drop_left]

/-- the tokens of a term give its text, number and unit -/
theorem identify_term (tf : List Char → Bool) (t : Term) (ht : t.WF) (x y : List Char) :
    identifyBlock tf (x ++ t.text ++ y) ((Piece.term t).tokens x.length) = .ok (if tf t.num.text then none else some t.todo) := by
  have h1 := isPow_false (decimal_notPow t.num ht.1 0 0 .number)
  have h2 := isPow_false (word_notPow (fun c hc => (ht.2.2.2 c hc).1) 0 0 .name)
  simp only at h1 h2
  have e1 : slice (x ++ t.text ++ y) x.length (x.length + t.num.text.length + t.gap.length + t.unit.length) = t.text := by
    have := slice_mid x t.text y
    rw [← List.append_assoc] at this
    have hl : t.text.length = t.num.text.length + (t.gap.length + t.unit.length) := by simp [Term.text]
    rw [hl] at this
    simpa only [Nat.add_assoc] using this
  have e2 : slice (x ++ t.text ++ y) (x.length + t.num.text.length + t.gap.length) (x.length + t.num.text.length + t.gap.length + t.unit.length) = t.unit := by
    have := slice_mid (x ++ t.num.text ++ t.gap) t.unit y
    have hx : x ++ t.text ++ y = x ++ t.num.text ++ t.gap ++ (t.unit ++ y) := by simp [Term.text]
    rw [hx]
    simpa only [List.length_append, Nat.add_assoc] using this
  simp only [identifyBlock, Piece.tokens, firstIdx, h1, h2, numbersBefore_eq, numbersFrom, startAt, stopAt]
  simp [e1, e2, Term.todo, -List.append_assoc]
  split <;> rfl

theorem blocks_terms (k : Nat) (ps : List Piece) (t : Term) : t ∈ termsOf ps ↔ ∃ c, (t, c) ∈ blocksAt k ps := by
  induction ps generalizing k with
  | nil => simp [termsOf, blocksAt]
  | cons p ps ih =>
    cases p with
    | term u =>
      simp only [termsOf, List.filterMap_cons, List.mem_cons, blocksAt, Prod.mk.injEq]
      rw [show (t ∈ List.filterMap _ ps) = (t ∈ termsOf ps) from rfl, ih (k + u.text.length)]
      constructor
      · rintro (rfl | ⟨c, hc⟩)
        · exact ⟨_, Or.inl ⟨rfl, rfl⟩⟩
        · exact ⟨c, Or.inr hc⟩
      · rintro ⟨c, ⟨rfl, -⟩ | hc⟩
        · exact Or.inl rfl
        · exact Or.inr ⟨c, hc⟩
    | blank s => exact ih _
    | word w => exact ih _
    | sep o => exact ih _
    | power o neg n => exact ih _

theorem good_terms (a : After) (ps : List Piece) (hg : Good a ps) : ∀ t ∈ termsOf ps, t.WF := by
  induction ps generalizing a with
  | nil => simp [termsOf]
  | cons p ps ih =>
    cases p with
    | term u =>
      intro t ht
      simp only [termsOf, List.filterMap_cons, List.mem_cons] at ht
      rcases ht with rfl | ht
      · exact hg.2.1
      · exact ih _ hg.2.2.2 t ht
    | blank s => exact ih _ hg.2.2
    | word w => exact ih _ hg.2.2.2
    | sep o => exact ih _ hg.2
    | power o neg n => exact ih _ hg.2.2.2.2

/-- the scaling factors of an expression are those of its terms, but for zero and one -/
theorem factors_pieces (tf : List Char → Bool) (ps : List Piece) (hg : Good .start ps) (extra : List Token) (he : ∀ t ∈ extra, t.typ = .other ∧ ¬ IsPow t) :
    ∃ xs, scalingFactors tf (written ps) (tokensAt 0 ps ++ extra) = .ok xs ∧
      ∀ x, x ∈ xs ↔ ∃ t ∈ termsOf ps, tf t.num.text = false ∧ x = t.todo := by
  have hwf := good_terms .start ps hg
  obtain ⟨b, bs, h1, h2, h3, h4⟩ := chunks_pieces extra (fun t ht => (he t ht).1) ps .start 0 hg
  have hblock : ∀ t c, (t, c) ∈ blocksAt 0 ps → identifyBlock tf (written ps) c = .ok (if tf t.num.text then none else some t.todo) := by
    intro t c hc
    obtain ⟨x, y, e1, rfl⟩ := blocks_place ps [] hc
    rw [List.nil_append] at e1
    rw [e1]
    exact identify_term tf t (hwf t ((blocks_terms 0 ps t).mpr ⟨_, hc⟩)) x y
  have hok : ∀ c ∈ bs, ∃ r, identifyBlock tf (written ps) c = .ok r := by
    intro c hc
    rcases h3 c hc with h | ⟨t, ht⟩
    · exact ⟨_, h tf _⟩
    · exact ⟨_, hblock t c ht⟩
  have htok : tokensAt 0 ps ++ extra = (itemsAt 0 ps ++ extra.map Item.tok).flatMap Item.tokens := by
    rw [List.flatMap_append, items_tokens]
    congr 1
    clear he h1 h2 h3 h4 hok
    induction extra with
    | nil => rfl
    | cons t l ih => rw [List.map_cons, List.flatMap_cons, ← ih]; rfl
  have hval : ∀ i ∈ itemsAt 0 ps ++ extra.map Item.tok, i.Valid := by
    intro i hi
    rcases List.mem_append.mp hi with hi | hi
    · exact items_valid 0 .start ps hg i hi
    · obtain ⟨t, ht, rfl⟩ := List.mem_map.mp hi
      exact ⟨(fun h => by rw [(he t ht).1] at h; cases h), (he t ht).2⟩
  unfold scalingFactors
  rw [htok, C53_blocks_partial _ hval, h1]
  simp only [List.drop_succ_cons, List.drop_zero]
  obtain ⟨xs, e1, e2⟩ := (identifyFactors_spec tf (written ps) bs).2 (by
    intro c hc hr
    obtain ⟨r, hr'⟩ := hok c hc
    rw [(C53_refused tf (written ps) c).mpr hr] at hr'
    cases hr')
  refine ⟨xs, e1, ?_⟩
  intro x
  rw [e2]
  constructor
  · rintro ⟨c, hc, hx⟩
    have hx := (C53_factor tf (written ps) c x).mpr hx
    rcases h3 c hc with h | ⟨t, ht⟩
    · rw [h tf _] at hx; cases hx
    · rw [hblock t c ht] at hx
      cases htf : tf t.num.text with
      | true => simp [htf] at hx
      | false =>
        simp only [htf, Bool.false_eq_true, if_false, Except.ok.injEq, Option.some.injEq] at hx
        exact ⟨t, (blocks_terms 0 ps t).mpr ⟨c, ht⟩, htf, hx.symm⟩
  · rintro ⟨t, ht, htf, rfl⟩
    obtain ⟨c, hc⟩ := (blocks_terms 0 ps t).mp ht
    have hcb : c ∈ bs := (h4 _ hc).elim id (fun h => by cases h.1)
    exact ⟨c, hcb, (C53_factor tf (written ps) c _).mp (by rw [hblock t c hc, htf]; rfl)⟩

/-! ## C65 -/

/-- C65, an expression made of names, powers of names and factors with units, whatever was parsed before: every factor but zero and one is written as
the identifier of its number and canonical unit, nothing else is changed, the identifier stands for the value of the term it replaces, what was defined
before keeps its value, and only these identifiers are added.
Missing: factors without a unit, signs and exponents of factors, digits in names, names after a power, and terms that begin with another term (see the
counterexamples). -/
theorem C65_preprocess_partial {Q : Type} (P : Pint Q) (canon : List Char → List Char) (val : Decimal → List Char → Q) (tf : List Char → Bool)
    (ps : List Piece) (hg : Good .start ps) (extra : List Token) (he : ∀ t ∈ extra, t.typ = .other ∧ ¬ IsPow t)
    (hfit : ∀ t ∈ termsOf ps, Fits P canon val t) (hpre : ∀ t ∈ termsOf ps, ∀ u ∈ termsOf ps, t.text <+: u.text → u = t)
    (defs : Defs Q) (hcons : Consistent val defs) :
    ∃ defs', scalingPreprocess P tf (tokensAt 0 ps ++ extra) defs (written ps) =
        (defs', .ok (showAll (fun t => if tf t.num.text then t.text else ident t.num (canon t.unit)) ps)) ∧
      (∀ t ∈ termsOf ps, tf t.num.text = false → ∃ q, P.value t.text = .ok q ∧ Dict.get? defs' (ident t.num (canon t.unit)) = some q) ∧
      Consistent val defs' ∧
      (∀ name q, Dict.get? defs name = some q → Dict.get? defs' name = some q) ∧
      (∀ name, Dict.get? defs' name = Dict.get? defs name ∨ ∃ t ∈ termsOf ps, tf t.num.text = false ∧ name = ident t.num (canon t.unit)) := by
  obtain ⟨xs, h1, h2⟩ := factors_pieces tf ps hg extra he
  have hinj : ∀ t ∈ termsOf ps, ∀ u ∈ termsOf ps, t.todo = u.todo → u = t := by
    intro t ht u hu h
    have : t.text = u.text := congrArg Todo.term h
    exact hpre t ht u hu (by rw [this]; exact List.prefix_refl _)
  have hmem : ∀ t ∈ termsOf ps, (t.todo ∈ xs ↔ tf t.num.text = false) := by
    intro t ht
    rw [h2]
    constructor
    · rintro ⟨u, hu, h3, h4⟩
      rw [← hinj t ht u hu h4]; exact h3
    · intro h; exact ⟨t, ht, h, rfl⟩
  obtain ⟨d, e1, e2, e3, e4, e5⟩ := store_all P canon val ps hg (good_terms _ ps hg) hfit hpre xs (fun x hx => by
    obtain ⟨t, ht, -, h⟩ := (h2 x).mp hx
    exact ⟨t, ht, h⟩) (fun _ => false) (fun t => !tf t.num.text) (by
      intro u hu
      rw [Bool.false_or, Bool.eq_iff_iff]
      simp [hmem u hu]) defs hcons
  refine ⟨d, ?_, ?_, e2, e3, ?_⟩
  · unfold scalingPreprocess
    rw [h1]
    have hw : written ps = showAll (partly canon (fun _ => false)) ps := by
      unfold written; congr 1
    have hf : (fun t : Term => if tf t.num.text then t.text else ident t.num (canon t.unit)) = partly canon (fun t => !tf t.num.text) := by
      funext t; unfold partly; cases h : tf t.num.text <;> simp [h]
    simp only [hf]
    rw [hw]
    exact e1
  · intro t ht htf
    exact ⟨_, (hfit t ht).value, e4 t ht ((hmem t ht).mpr htf)⟩
  · intro name
    rcases e5 name with h | ⟨t, ht, h3, h4⟩
    · exact Or.inl h
    · exact Or.inr ⟨t, ht, (hmem t ht).mp h3, h4⟩

/-- expressions processed one after the other -/
def processAll {Q : Type} (P : Pint Q) (tf : List Char → Bool) : Defs Q → List (List Piece) → Defs Q × List (Except PyErr (List Char))
  | defs, [] => (defs, [])
  | defs, ps :: rest =>
    let r := scalingPreprocess P tf (tokensAt 0 ps) defs (written ps)
    let rs := processAll P tf r.1 rest
    (rs.1, r.2 :: rs.2)

/-- C65, many expressions with the same registry: every identifier in every result stands, in the end, for the value of the term it replaced -/
theorem C65_history_partial {Q : Type} (P : Pint Q) (canon : List Char → List Char) (val : Decimal → List Char → Q) (tf : List Char → Bool)
    (es : List (List Piece)) (hg : ∀ ps ∈ es, Good .start ps) (hfit : ∀ ps ∈ es, ∀ t ∈ termsOf ps, Fits P canon val t)
    (hpre : ∀ ps ∈ es, ∀ t ∈ termsOf ps, ∀ u ∈ termsOf ps, t.text <+: u.text → u = t) :
    (processAll P tf [] es).2 = es.map (fun ps => .ok (showAll (fun t => if tf t.num.text then t.text else ident t.num (canon t.unit)) ps)) ∧
    ∀ ps ∈ es, ∀ t ∈ termsOf ps, tf t.num.text = false →
      ∃ q, P.value t.text = .ok q ∧ Dict.get? (processAll P tf [] es).1 (ident t.num (canon t.unit)) = some q := by
  have key : ∀ (es : List (List Piece)), (∀ ps ∈ es, Good .start ps) → (∀ ps ∈ es, ∀ t ∈ termsOf ps, Fits P canon val t) →
      (∀ ps ∈ es, ∀ t ∈ termsOf ps, ∀ u ∈ termsOf ps, t.text <+: u.text → u = t) → ∀ defs, Consistent val defs →
      (processAll P tf defs es).2 = es.map (fun ps => .ok (showAll (fun t => if tf t.num.text then t.text else ident t.num (canon t.unit)) ps)) ∧
      (∀ name q, Dict.get? defs name = some q → Dict.get? (processAll P tf defs es).1 name = some q) ∧
      ∀ ps ∈ es, ∀ t ∈ termsOf ps, tf t.num.text = false →
        ∃ q, P.value t.text = .ok q ∧ Dict.get? (processAll P tf defs es).1 (ident t.num (canon t.unit)) = some q := by
    intro es
    induction es with
    | nil => intro _ _ _ defs _; exact ⟨rfl, fun _ _ h => h, fun _ h => by simp at h⟩
    | cons ps es ih =>
      intro h1 h2 h3 defs hc
      obtain ⟨d, e1, e2, e3, e4, -⟩ := C65_preprocess_partial P canon val tf ps (h1 ps (by simp)) [] (by simp) (h2 ps (by simp)) (h3 ps (by simp)) defs hc
      rw [List.append_nil] at e1
      obtain ⟨i1, i2, i3⟩ := ih (fun x hx => h1 x (by simp [hx])) (fun x hx => h2 x (by simp [hx])) (fun x hx => h3 x (by simp [hx])) d e3
      simp only [processAll, e1]
      refine ⟨by rw [i1]; rfl, fun name q h => i2 _ _ (e4 _ _ h), ?_⟩
      intro x hx t ht htf
      rcases List.mem_cons.mp hx with rfl | hx
      · obtain ⟨q, q1, q2⟩ := e2 t ht htf
        exact ⟨q, q1, i2 _ _ q2⟩
      · exact i3 x hx t ht htf
  obtain ⟨h1, -, h3⟩ := key es hg hfit hpre [] (by intro n u q _ _ h; simp at h)
  exact ⟨h1, h3⟩

/-- text without digits is kept -/
theorem skip_plain (t v x rest : List Char) (d : Char) (y : List Char) (ht : t = d :: y) (hd : d.isDigit = true) (prev : Option Char)
    (hx : ∀ c ∈ x, c.isDigit = false) : subTerm t v prev 0 (x ++ rest) = x ++ subTerm t v (lastOf prev x) 0 rest := by
  apply subTerm_skip
  rintro a b rfl hb ⟨-, r, h, -⟩
  cases b with
  | nil => exact hb rfl
  | cons c b =>
    rw [ht] at h
    simp only [List.cons_append, List.cons.injEq] at h
    have := hx c (by simp)
    rw [h.1, hd] at this
    cases this

/-- C65, a factor without a unit that is the only number of an expression is replaced by its identifier, which stands for its value unless it stood for
something else before.
Missing: other digits in the expression (see the counterexamples). -/
theorem C65_bare_partial {Q : Type} (P : Pint Q) (n : Decimal) (hn : n.WF) (x y : List Char) (hx : ∀ c ∈ x, c.isDigit = false) (hy : ∀ c ∈ y, c.isDigit = false)
    (hlast : ∀ c, x.getLast? = some c → c ∉ ['-', '+', '.']) (hfirst : ∀ r, y ≠ '.' :: r) (q : Q) (hq : P.value n.text = .ok q)
    (defs : Defs Q) (hnew : P.known (n.numeral.code) = false) :
    storeAndMangle P defs (x ++ n.text ++ y) [⟨n.text, n.text, none⟩] =
      ((if (Dict.get? defs n.numeral.code).isSome then defs else Dict.set defs n.numeral.code q), .ok (x ++ n.numeral.code ++ y)) := by
  have hwf : n.numeral.WF := ⟨hn.1, hn.2.1, hn.2.2, by intro e s ds he; cases he⟩
  have htext : n.numeral.text = n.text := by cases hf : n.frac <;> simp [Numeral.text, Decimal.text, Decimal.numeral, hf]
  have hund : '_' ∉ n.text := fun hm => absurd (decimal_ahead _ hn _ hm) (by decide)
  have hmin : '-' ∉ n.text := fun hm => absurd (decimal_ahead _ hn _ hm) (by decide)
  have hsq : squeeze n.text = n.text := by
    unfold squeeze
    rw [List.filter_eq_self]
    intro c hc
    have hc := decimal_ahead _ hn c hc
    simp only [inAhead, Bool.or_eq_true] at hc
    rcases hc with hc | hc
    · have := word_noMinus (c := c) (by simp [isWord, Char.isAlphanum, hc])
      have h2 := this.2.2.2
      simp only [isSpace, Bool.or_eq_false_iff, beq_eq_false_iff_ne] at h2
      simp [this.2.2.1, h2]
    · rw [beq_iff_eq] at hc; subst hc; decide
  have hm : mangle n.text none = n.numeral.code := by
    have h1 := stripTerm_eq n.text n.text [] n.text (by rw [hsq, List.append_nil]) (by
      rw [hsq]; rintro ⟨a, b, e⟩; exact hmin (by rw [← e]; simp)) (separated_self hund) (by rintro ⟨d, -, h⟩; simp at h)
    have h2 := underscore_text n.numeral hwf []
    simp only [List.append_nil, htext] at h1 h2
    simp only [mangle, h1]
    rw [h2]; simp [underscore]
  obtain ⟨d, w, hd, hdig⟩ : ∃ d w, n.text = d :: w ∧ d.isDigit = true := by
    unfold Decimal.text
    cases hi : n.int with
    | nil => exact absurd hi hn.1
    | cons d i => exact ⟨d, i ++ _, rfl, hn.2.1 d (by rw [hi]; simp)⟩
  have hsub : subTerm n.text n.numeral.code none 0 (x ++ n.text ++ y) = x ++ n.numeral.code ++ y := by
    rw [List.append_assoc, skip_plain n.text _ x _ d w hd hdig none hx, subTerm_hit (by rw [hd]; simp)]
    · have := skip_plain n.text n.numeral.code y [] d w hd hdig (lastOf (lastOf none x) n.text) hy
      rw [List.append_nil] at this
      rw [this]
      simp [subTerm]
    · refine ⟨?_, y, rfl, ?_⟩
      · intro c hc
        unfold lastOf at hc
        cases hl : x.getLast? with
        | none => simp [hl] at hc
        | some e =>
          simp only [hl, Option.some.injEq] at hc
          subst hc
          have h1 := hlast e hl
          have h2 := hx e (List.mem_of_getLast? hl)
          simp only [List.mem_cons, List.not_mem_nil, or_false, not_or] at h1
          simp [inBehind, h1, h2]
      · rintro c r rfl
        have h2 := hy c (by simp)
        have h3 : c ≠ '.' := fun e => hfirst r (by rw [e])
        simp [inAhead, h2, h3]
  simp only [storeAndMangle, validName, hm, define, hnew, Bool.false_or]
  cases hg : (Dict.get? defs n.numeral.code).isSome with
  | true => simp [hsub, -List.append_assoc]
  | false => simp [hq, hsub, -List.append_assoc]

/-- the hypotheses are met by the factor of `g / 2.5 / m` -/
example : storeAndMangle ({ canonical := fun _ => .error .undefinedUnit, known := fun _ => false, value := fun s => .ok s } : Pint (List Char)) []
      "g / 2.5 / m".toList [⟨"2.5".toList, "2.5".toList, none⟩] = ([("_2_5".toList, "2.5".toList)], .ok "g / _2_5 / m".toList) :=
  C65_bare_partial _ ⟨['2'], some ['5']⟩ ⟨by simp, by decide, by rintro f ⟨⟩; exact ⟨by simp, by decide⟩⟩ "g / ".toList " / m".toList (by decide) (by decide)
    (by intro c hc; have : c = ' ' := by simpa using hc.symm
        subst this; decide) (by intro r h; simp at h) _ rfl [] rfl

/-! ### An example -/

/-- names for a few units; the value of a term is represented by its text without blanks -/
def exPint : Pint (List Char) where
  canonical u := if u = "g".toList then .ok "gram".toList else if u = "mL".toList then .ok "milliliter".toList
    else if u = "gal".toList then .ok "gallon".toList else .error .undefinedUnit
  known _ := false
  value s := .ok s

def exCanon (u : List Char) : List Char := if u = "g".toList then "gram".toList else if u = "mL".toList then "milliliter".toList else "gallon".toList

/-- `mol * 2.5 g/ m**-2 / (3 mL)` -/
def exPieces : List Piece := [.word "mol".toList, .blank [' '], .sep ['*'], .blank [' '], .term ⟨⟨['2'], some ['5']⟩, [' '], ['g']⟩, .sep ['/'], .blank [' '],
  .word ['m'], .power ['*', '*'] true ⟨['2'], none⟩, .blank [' '], .sep ['/'], .blank [' '], .sep ['('], .term ⟨⟨['3'], none⟩, [' '], "mL".toList⟩, .sep [')']]

theorem exPieces_good : Good .start exPieces := by
  have hp : ∀ w : List Char, (match w with | c :: _ => c.isAlpha | [] => false) = true → w.all (fun c => isWord c && !c.isDigit) = true → Plain w := by
    intro w h1 h2
    refine ⟨?_, ?_⟩
    · cases w with
      | nil => simp at h1
      | cons c t => exact ⟨c, t, rfl, h1⟩
    · intro c hc
      have := List.all_eq_true.mp h2 c hc
      simpa using this
  have hb : Blank [' '] := by intro c hc; exact Or.inl (List.mem_singleton.mp hc)
  have hn1 : Decimal.WF ⟨['2'], some ['5']⟩ := ⟨by simp, by decide, by rintro f ⟨⟩; exact ⟨by simp, by decide⟩⟩
  have hn2 : Decimal.WF ⟨['2'], none⟩ := ⟨by simp, by decide, by rintro f ⟨⟩⟩
  have hn3 : Decimal.WF ⟨['3'], none⟩ := ⟨by simp, by decide, by rintro f ⟨⟩⟩
  have w1 := hp "mol".toList (by decide) (by decide)
  have w2 := hp ['g'] (by decide) (by decide)
  have w3 := hp ['m'] (by decide) (by decide)
  have w4 := hp "mL".toList (by decide) (by decide)
  simp [exPieces, Good, NameEnds, NumberEnds, hb, Term.WF, hn1, hn2, hn3, w2, w3]
  exact ⟨w1, w4⟩

/-- the hypotheses are met, and the text is as expected -/
example : written exPieces = "mol * 2.5 g/ m**-2 / (3 mL)".toList ∧
    scalingPreprocess exPint (fun _ => false) (tokensAt 0 exPieces) [] (written exPieces) =
      ([("_2_5_gram".toList, "2.5 g".toList), ("_3_milliliter".toList, "3 mL".toList)], .ok "mol * _2_5_gram/ m**-2 / (_3_milliliter)".toList) := by
  decide +kernel

example : ∀ t ∈ termsOf exPieces, Fits exPint exCanon (fun n u => n.text ++ ' ' :: (if u = "gram".toList then ['g'] else "mL".toList)) t := by
  intro t ht
  have ht : t = ⟨⟨['2'], some ['5']⟩, [' '], ['g']⟩ ∨ t = ⟨⟨['3'], none⟩, [' '], "mL".toList⟩ := by simpa [termsOf, exPieces] using ht
  have hp : Plain "gram".toList ∧ Plain "milliliter".toList := by
    refine ⟨⟨⟨'g', _, rfl, by decide⟩, by decide⟩, ⟨⟨'m', _, rfl, by decide⟩, by decide⟩⟩
  rcases ht with rfl | rfl
  · exact ⟨by decide, hp.1, by decide, rfl⟩
  · exact ⟨by decide, hp.2, by decide, rfl⟩

example : ∀ t ∈ termsOf exPieces, ∀ u ∈ termsOf exPieces, t.text <+: u.text → u = t := by decide +kernel

/-! ### Where it fails -/

/-- C65 fails for a factor without a unit that is repeated: the second round replaces the digit in the identifiers of the first. `m/2/2` becomes an
expression in `__2`, which is not defined. -/
theorem C65_repeated_counterexample :
    scalingPreprocess exPint (fun _ => false) [⟨.name, ['m'], 0, 1⟩, ⟨.op, ['/'], 1, 2⟩, ⟨.number, ['2'], 2, 3⟩, ⟨.op, ['/'], 3, 4⟩, ⟨.number, ['2'], 4, 5⟩] []
      "m/2/2".toList = ([("_2".toList, ['2'])], .ok "m/__2/__2".toList) := by decide +kernel

/-- C65 fails for a factor without a unit whose digits end another factor: `m/2.5/5` -/
theorem C65_digits_counterexample :
    scalingPreprocess exPint (fun _ => false) [⟨.name, ['m'], 0, 1⟩, ⟨.op, ['/'], 1, 2⟩, ⟨.number, "2.5".toList, 2, 5⟩, ⟨.op, ['/'], 5, 6⟩, ⟨.number, ['5'], 6, 7⟩] []
      "m/2.5/5".toList = ([("_2_5".toList, "2.5".toList), ("_5".toList, ['5'])], .ok "m/_2__5/_5".toList) := by decide +kernel

/-- C65 fails for exponents: `g/2/m**2` is changed to `g/_2/m**_2` -/
theorem C65_exponent_counterexample :
    scalingPreprocess exPint (fun _ => false) [⟨.name, ['g'], 0, 1⟩, ⟨.op, ['/'], 1, 2⟩, ⟨.number, ['2'], 2, 3⟩, ⟨.op, ['/'], 3, 4⟩, ⟨.name, ['m'], 4, 5⟩,
      ⟨.op, ['*', '*'], 5, 7⟩, ⟨.number, ['2'], 7, 8⟩] [] "g/2/m**2".toList = ([("_2".toList, ['2'])], .ok "g/_2/m**_2".toList) := by decide +kernel

/-- C65 fails for digits in names: in `psi/2/cmH2O` the name becomes `cmH_2O` -/
theorem C65_name_counterexample :
    scalingPreprocess exPint (fun _ => false) [⟨.name, "psi".toList, 0, 3⟩, ⟨.op, ['/'], 3, 4⟩, ⟨.number, ['2'], 4, 5⟩, ⟨.op, ['/'], 5, 6⟩,
      ⟨.name, "cmH2O".toList, 6, 11⟩] [] "psi/2/cmH2O".toList = ([("_2".toList, ['2'])], .ok "psi/_2/cmH_2O".toList) := by decide +kernel

/-- C65 fails for a term that begins another one: in `m/2 g/2 gal` the gallons become `_2_gramal` -/
theorem C65_prefix_counterexample :
    (scalingPreprocess exPint (fun _ => false) [⟨.name, ['m'], 0, 1⟩, ⟨.op, ['/'], 1, 2⟩, ⟨.number, ['2'], 2, 3⟩, ⟨.name, ['g'], 4, 5⟩, ⟨.op, ['/'], 5, 6⟩,
      ⟨.number, ['2'], 6, 7⟩, ⟨.name, "gal".toList, 8, 11⟩] [] "m/2 g/2 gal".toList).2 = .ok "m/_2_gram/_2_gramal".toList := by decide +kernel

/-- C65 fails for numbers with exponents: in `m/5 g/2e5 g` the exponent is taken for the other term -/
theorem C65_float_counterexample :
    (scalingPreprocess exPint (fun _ => false) [⟨.name, ['m'], 0, 1⟩, ⟨.op, ['/'], 1, 2⟩, ⟨.number, ['5'], 2, 3⟩, ⟨.name, ['g'], 4, 5⟩, ⟨.op, ['/'], 5, 6⟩,
      ⟨.number, "2e5".toList, 6, 9⟩, ⟨.name, ['g'], 10, 11⟩] [] "m/5 g/2e5 g".toList).2 = .ok "m/_5_gram/2e_5_gram".toList := by decide +kernel

/-- C65 fails for the leading term, which is not allowed to be a scaling factor: in `5 g/5 g` it is replaced with the other one, and so escapes the check -/
theorem C65_leading_counterexample :
    (scalingPreprocess exPint (fun _ => false) [⟨.number, ['5'], 0, 1⟩, ⟨.name, ['g'], 2, 3⟩, ⟨.op, ['/'], 3, 4⟩, ⟨.number, ['5'], 4, 5⟩, ⟨.name, ['g'], 6, 7⟩] []
      "5 g/5 g".toList).2 = .ok "_5_gram/_5_gram".toList := by decide +kernel

/-- C65 fails for signs: after metres over `-5 g` were parsed, metres over `.5 g` stand for metres over minus five gram -/
theorem C65_history_counterexample :
    let first := scalingPreprocess exPint (fun _ => false) [⟨.name, ['m'], 0, 1⟩, ⟨.op, ['/'], 1, 2⟩, ⟨.op, ['-'], 2, 3⟩, ⟨.number, ['5'], 3, 4⟩, ⟨.name, ['g'], 5, 6⟩] []
      "m/-5 g".toList
    let second := scalingPreprocess exPint (fun _ => false) [⟨.name, ['m'], 0, 1⟩, ⟨.op, ['/'], 1, 2⟩, ⟨.number, ".5".toList, 2, 4⟩, ⟨.name, ['g'], 5, 6⟩] first.1
      "m/.5 g".toList
    second = ([("__5_gram".toList, "-5 g".toList)], .ok "m/__5_gram".toList) := by decide +kernel

end Verif.Mangle
