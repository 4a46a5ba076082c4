import Verif.Props.SciNumeral
/-!
# `_scientific_notation_preprocessor` on a sequence of tokens
-/

set_option linter.unusedSimpArgs false
set_option linter.unusedVariables false

namespace Verif.SciNotation
open Verif.Py Verif.Regex

inductive Sym where
  | star | slash | dslash | pow | caret | plus | minus | lpar | rpar
  deriving DecidableEq

def Sym.text : Sym → List Char
  | .star => ['*']
  | .slash => ['/']
  | .dslash => ['/', '/']
  | .pow => ['*', '*']
  | .caret => ['^']
  | .plus => ['+']
  | .minus => ['-']
  | .lpar => ['(']
  | .rpar => [')']

/-- a token and the blanks after it -/
inductive Tok where
  | num (n : Numeral) (w : List Char)
  | name (t w : List Char)
  | sym (s : Sym) (w : List Char)
  deriving DecidableEq

def Tok.body : Tok → List Char
  | .num n _ => n.text
  | .name t _ => t
  | .sym s _ => s.text

def Tok.blanks : Tok → List Char
  | .num _ w => w
  | .name _ w => w
  | .sym _ w => w

def text : List Tok → List Char
  | [] => []
  | t :: r => t.body ++ (t.blanks ++ text r)

/-- the token is what its constructor says -/
def Tok.wf (t : Tok) : Bool := t.blanks.all isSpace && match t with
  | .num n _ => n.wf
  | .name (x :: xs) _ => !x.isDigit && isWord x && xs.all isWord
  | .name [] _ => false
  | .sym _ _ => true

/-- a number or name -/
def Tok.word : Tok → Bool
  | .sym _ _ => false
  | _ => true

/-- the two tokens can be told apart: words are separated by blanks, and so are the stars of two operators -/
def apart : Tok → Tok → Bool
  | .sym .star [], .sym .star _ => false
  | .sym .star [], .sym .pow _ => false
  | .num _ [], t => !t.word
  | .name _ [], t => !t.word
  | _, _ => true

/-- the text can be cut into these tokens -/
def lexed : List Tok → Bool
  | [] => true
  | t :: r => t.wf && (match r with | [] => true | t' :: _ => apart t t') && lexed r

/-- a sign that touches what follows -/
def plusTok : List Tok → List Tok
  | .sym .plus [] :: r => r
  | r => r

def signTok : List Tok → List Char × List Tok
  | .sym .minus [] :: r => (['-'], r)
  | r => ([], r)

/-- a number, maybe with `+` and `-` before it -/
def expTok (r : List Tok) : Option (List Char × Numeral × List Char × List Tok) := match signTok (plusTok r) with
  | (sg, .num k w :: r') => some (sg, k, w, r')
  | _ => none

/-- a number as exponent -/
def powTok : List Tok → Option (List Char × Numeral × List Char × List Tok)
  | .sym .pow _ :: r => expTok r
  | .sym .caret _ :: r => expTok r
  | _ => none

/-- a whole number as exponent -/
def powInt (r : List Tok) : Option (List Char × List Char × List Char × List Tok) := match powTok r with
  | some (sg, k, w, r') => if k.frac = none ∧ k.exp = none then some (sg, k.int, w, r') else none
  | none => none

/-- `* 10 ** k` -/
def tenTail : List Tok → Option (List Char × List Char × List Char × List Tok)
  | .sym .star _ :: .num n _ :: r => if n = .ten then powInt r else none
  | _ => none

def startsPow : List Tok → Bool
  | .sym .pow _ :: _ => true
  | .sym .caret _ :: _ => true
  | _ => false

def startsTimesTen : List Tok → Bool
  | .sym .star _ :: .num n _ :: _ => n == .ten
  | _ => false

/-- the places where the text of a number is taken apart: a fraction `.10` that is raised to a power, a number with a signed exponent that is raised to a power or
multiplied with `10`, and a fraction or a power as exponent of `10` -/
def safeHere (n : Numeral) (r : List Tok) : Bool :=
  (n.frac != some ['1', '0'] || !startsPow r) &&
  (match n.exp with
    | some (sg, _) => sg == [] || (!startsPow r && !startsTimesTen r)
    | none => true) &&
  (n != .ten || match powTok r with
    | some (_, k, _, r') => k.frac == none && (k.exp != none || !startsPow r')
    | none => true)

def safe : List Tok → Bool
  | [] => true
  | .num n _ :: r => safeHere n r && safe r
  | _ :: r => safe r

theorem length_expTok {r r' : List Tok} {sg w : List Char} {k : Numeral} (h : expTok r = some (sg, k, w, r')) : r'.length < r.length := by
  have h1 : (plusTok r).length ≤ r.length := by unfold plusTok; split <;> simp
  have h2 : (signTok (plusTok r)).2.length ≤ (plusTok r).length := by
    generalize plusTok r = z
    unfold signTok; split <;> simp
  unfold expTok at h
  split at h
  · rename_i e
    cases h
    rw [e] at h2
    simp at h2
    omega
  · cases h

theorem length_powInt {r r' : List Tok} {sg ds w : List Char} (h : powInt r = some (sg, ds, w, r')) : r'.length < r.length := by
  unfold powInt at h
  split at h
  · rename_i e
    split at h
    · cases h
      unfold powTok at e
      split at e
      · have := length_expTok e; simp; omega
      · have := length_expTok e; simp; omega
      · cases e
    · cases h
  · cases h

theorem length_tenTail {r r' : List Tok} {sg ds w : List Char} (h : tenTail r = some (sg, ds, w, r')) : r'.length < r.length := by
  unfold tenTail at h
  split at h
  · split at h
    · have := length_powInt h; simp; omega
    · cases h
  · cases h

/-- `n * 10 ** k` becomes the number `nek`, `10 ** k` becomes `1ek` -/
def rewriteN : Nat → List Tok → List Tok
  | 0, r => r
  | _ + 1, [] => []
  | m + 1, .num n w :: r => match (if n.exp = none then tenTail r else none) with
    | some (sg, ds, w', r') => .num { n with exp := some (sg, ds) } w' :: rewriteN m r'
    | none => match (if n = .ten then powInt r else none) with
      | some (sg, ds, w', r') => .num ⟨['1'], none, some (sg, ds)⟩ w' :: rewriteN m r'
      | none => .num n w :: rewriteN m r
  | m + 1, t :: r => t :: rewriteN m r

def rewrite (r : List Tok) : List Tok := rewriteN r.length r

theorem rewriteN_le {n m : Nat} {r : List Tok} (h1 : r.length ≤ n) (h2 : r.length ≤ m) : rewriteN n r = rewriteN m r := by
  induction n generalizing m r with
  | zero =>
    have : r = [] := by cases r with | nil => rfl | cons x xs => simp at h1
    subst this
    cases m <;> rfl
  | succ n ih =>
    cases r with
    | nil => cases m <;> rfl
    | cons t r =>
      cases m with
      | zero => simp at h2
      | succ m =>
        simp only [List.length_cons, Nat.add_le_add_iff_right] at h1 h2
        cases t with
        | name t w => simp only [rewriteN]; rw [ih h1 h2]
        | sym t w => simp only [rewriteN]; rw [ih h1 h2]
        | num k w =>
          simp only [rewriteN]
          split
          · rename_i sg ds w' r' e
            have : r'.length < r.length := by
              split at e
              · exact length_tenTail e
              · cases e
            rw [ih (m := m) (by omega) (by omega)]
          · split
            · rename_i sg ds w' r' e
              have : r'.length < r.length := by
                split at e
                · exact length_powInt e
                · cases e
              rw [ih (m := m) (by omega) (by omega)]
            · rw [ih h1 h2]

@[simp] theorem rewrite_nil : rewrite [] = [] := rfl

@[simp] theorem rewrite_name (t w : List Char) (r : List Tok) : rewrite (.name t w :: r) = .name t w :: rewrite r := rfl

@[simp] theorem rewrite_sym (s : Sym) (w : List Char) (r : List Tok) : rewrite (.sym s w :: r) = .sym s w :: rewrite r := rfl

theorem rewrite_num (n : Numeral) (w : List Char) (r : List Tok) : rewrite (.num n w :: r) = match (if n.exp = none then tenTail r else none) with
    | some (sg, ds, w', r') => .num { n with exp := some (sg, ds) } w' :: rewrite r'
    | none => match (if n = .ten then powInt r else none) with
      | some (sg, ds, w', r') => .num ⟨['1'], none, some (sg, ds)⟩ w' :: rewrite r'
      | none => .num n w :: rewrite r := by
  show rewriteN (r.length + 1) _ = _
  simp only [rewriteN]
  split
  · rename_i sg ds w' r' e
    have : r'.length < r.length := by
      split at e
      · exact length_tenTail e
      · cases e
    rw [rewriteN_le (m := r'.length) (by omega) (Nat.le_refl _)]
    rfl
  · split
    · rename_i sg ds w' r' e
      have : r'.length < r.length := by
        split at e
        · exact length_powInt e
        · cases e
      rw [rewriteN_le (m := r'.length) (by omega) (Nat.le_refl _)]
      rfl
    · rfl

/-! ## The first character of a token -/

theorem numeral_head {n : Numeral} (h : n.wf = true) : ∃ x xs, n.text = x :: xs ∧ (x.isDigit = true ∨ x = '.') := by
  simp only [Numeral.wf, Bool.and_eq_true] at h
  obtain ⟨⟨hi, hf⟩, _⟩ := h
  unfold Numeral.text Numeral.mant Numeral.fracText
  cases hint : n.int with
  | cons x xs =>
    rw [hint] at hi
    simp only [List.all_cons, Bool.and_eq_true] at hi
    exact ⟨x, _, rfl, .inl hi.1⟩
  | nil =>
    cases hfr : n.frac with
    | none => rw [hfr, hint] at hf; simp at hf
    | some f => exact ⟨'.', _, rfl, .inr rfl⟩

/-- the text of a token list begins with the first token -/
theorem text_cons {t : Tok} {r : List Tok} (h : t.wf = true) : ∃ x xs, text (t :: r) = x :: xs ∧ isSpace x = false ∧
    match t with
    | .num _ _ => x.isDigit = true ∨ x = '.'
    | .name _ _ => x.isDigit = false ∧ isWord x = true
    | .sym s _ => s.text.head? = some x := by
  simp only [Tok.wf, Bool.and_eq_true] at h
  cases t with
  | num n w =>
    obtain ⟨x, xs, e, hx⟩ := numeral_head h.2
    refine ⟨x, xs ++ (w ++ text r), by simp [text, Tok.body, Tok.blanks, e], ?_, hx⟩
    rcases hx with hx | rfl
    · exact (digit_other hx).1
    · decide
  | name t w =>
    cases t with
    | nil => exact absurd h.2 (by simp)
    | cons x xs =>
      have h2 := h.2
      simp only [Bool.and_eq_true, Bool.not_eq_true'] at h2
      refine ⟨x, _, rfl, ?_, h2.1.1, h2.1.2⟩
      cases hs : isSpace x with
      | false => rfl
      | true => rw [space_word hs] at h2; simp at h2
  | sym s w => cases s <;> exact ⟨_, _, rfl, by decide, rfl⟩

theorem name_not {x : Char} (h : isWord x = true) : x ≠ '*' ∧ x ≠ '^' ∧ x ≠ '+' ∧ x ≠ '-' ∧ x ≠ '.' := by
  refine ⟨?_, ?_, ?_, ?_, ?_⟩ <;> (rintro rfl; revert h; decide)

/-- blanks before a token are skipped -/
theorem drop_blanks {w : List Char} {r : List Tok} (hw : w.all isSpace = true) (hr : lexed r = true) : (w ++ text r).dropWhile isSpace = text r := by
  induction w with
  | nil =>
    simp only [List.nil_append]
    cases r with
    | nil => rfl
    | cons t r =>
      simp only [lexed, Bool.and_eq_true] at hr
      obtain ⟨x, xs, e, hs, _⟩ := text_cons (r := r) hr.1.1
      rw [e, List.dropWhile_cons, if_neg (by simp [hs])]
  | cons x xs ih =>
    simp only [List.all_cons, Bool.and_eq_true] at hw
    rw [List.cons_append, List.dropWhile_cons, if_pos hw.1, ih hw.2]

theorem lexed_cons {t : Tok} {r : List Tok} (h : lexed (t :: r) = true) : t.wf = true ∧ lexed r = true ∧ ∀ t' r', r = t' :: r' → apart t t' = true := by
  simp only [lexed, Bool.and_eq_true] at h
  exact ⟨h.1.1, h.2, by rintro t' r' rfl; exact h.1.2⟩

theorem wf_blanks {t : Tok} (h : t.wf = true) : t.blanks.all isSpace = true := by
  simp only [Tok.wf, Bool.and_eq_true] at h; exact h.1

/-- what follows a word does not go on with it -/
theorem after_word {t : Tok} {r : List Tok} (ht : t.word = true) (h : lexed (t :: r) = true) :
    ∀ x xs, t.blanks ++ text r = x :: xs → isWord x = false ∧ x ≠ '.' := by
  obtain ⟨h1, h2, h3⟩ := lexed_cons h
  intro x xs e
  cases hb : t.blanks with
  | cons y ys =>
    rw [hb] at e
    cases e
    have := wf_blanks h1
    rw [hb] at this
    simp only [List.all_cons, Bool.and_eq_true] at this
    exact ⟨space_word this.1, (isDigit_not_space this.1).2.2.2.2.2.2⟩
  | nil =>
    rw [hb] at e
    simp only [List.nil_append] at e
    cases r with
    | nil => cases e
    | cons t' r' =>
      have ha := h3 t' r' rfl
      have hs : t'.word = false := by
        cases t with
        | num n w => simp only [Tok.blanks] at hb; subst hb; simpa [apart] using ha
        | name n w => simp only [Tok.blanks] at hb; subst hb; simpa [apart] using ha
        | sym s w => cases ht
      obtain ⟨y, ys, e', _, h4⟩ := text_cons (r := r') (lexed_cons h2).1
      rw [e'] at e
      cases e
      cases t' with
      | num => cases hs
      | name => cases hs
      | sym s w => cases s <;> (simp only [Sym.text, List.head?_cons, Option.some.injEq] at h4; subst h4; decide)

/-! ## Exponents -/

/-- what the expression finds after `10 **` -/
def found (p : List Char × List Char × List Char × List Tok) : List Char × List Char := (p.1 ++ p.2.1, p.2.2.1 ++ text p.2.2.2)

theorem expo_nil_of {z : List Char} (hs : (sign z).2 = z) (h : ∀ x xs, z = x :: xs → x.isDigit = false) : expo z = none := by
  unfold expo
  rw [if_pos]
  left
  rw [hs]
  cases z with
  | nil => rfl
  | cons x xs => simp [List.takeWhile_cons, h x xs rfl]

theorem sign_other {x : Char} {xs : List Char} (h : x ≠ '-') : sign (x :: xs) = ([], x :: xs) := by
  unfold sign
  split
  · rename_i e; cases e; exact absurd rfl h
  · rfl

theorem plus_other {x : Char} {xs : List Char} (h : x ≠ '+') : plus (x :: xs) = x :: xs := by
  unfold plus
  split
  · rename_i e; cases e; exact absurd rfl h
  · rfl

/-- digits, or not -/
theorem digits_num {n : Numeral} {w : List Char} {r : List Tok} (h : lexed (.num n w :: r) = true) (hf : n.frac = none) :
    (text (.num n w :: r)).takeWhile Char.isDigit = n.int ∧ n.int ≠ [] ∧ (text (.num n w :: r)).dropWhile Char.isDigit = n.expText ++ (w ++ text r) ∧
      wordy (n.expText ++ (w ++ text r)).head? = decide (n.exp ≠ none) := by
  obtain ⟨h1, h2, h3⟩ := lexed_cons h
  have ha := after_word rfl h
  simp only [Tok.wf, Bool.and_eq_true, Numeral.wf] at h1
  obtain ⟨_, ⟨hi, hf'⟩, he⟩ := h1
  rw [hf] at hf'
  simp only [bne_iff_ne, ne_eq] at hf'
  have e : text (.num n w :: r) = n.int ++ (n.expText ++ (w ++ text r)) := by
    simp [text, Tok.body, Tok.blanks, Numeral.text, Numeral.mant, Numeral.fracText, hf]
  have hd : ∀ x xs, n.expText ++ (w ++ text r) = x :: xs → x.isDigit = false := by
    intro x xs e
    unfold Numeral.expText at e
    split at e
    · exact not_digit (ha x xs e).1
    · cases e; decide
  obtain ⟨t1, t2⟩ := takeWhile_append hi hd
  refine ⟨by rw [e, t1], hf', by rw [e, t2], ?_⟩
  unfold Numeral.expText
  cases he' : n.exp with
  | some p => simp [wordy]; decide
  | none =>
    simp only [List.nil_append]
    cases hz : w ++ text r with
    | nil => rfl
    | cons x xs => simp [wordy, (ha x xs hz).1]

/-- `\+?(-?\d+\b)` and the tokens -/
theorem expo_tok {r : List Tok} (h : lexed r = true) (hs : ∀ sg k w r', expTok r = some (sg, k, w, r') → k.frac = none) :
    expo (plus (text r)) = (match expTok r with
      | some (sg, k, w, r') => if k.frac = none ∧ k.exp = none then some (sg, k.int, w, r') else none
      | none => none).map found := by
  -- without the plus
  have key : ∀ r : List Tok, lexed r = true → (∀ sg k w r', signTok r = (sg, .num k w :: r') → k.frac = none) →
      expo (text r) = (match signTok r with
        | (sg, .num k w :: r') => if k.frac = none ∧ k.exp = none then some (sg, k.int, w, r') else none
        | _ => none).map found := by
    intro r h hs
    -- numbers, after the sign
    have num : ∀ sg n w r z, lexed (.num n w :: r) = true → n.frac = none → sign z = (sg, text (.num n w :: r)) →
        expo z = (if n.frac = none ∧ n.exp = none then some (sg, n.int, w, r) else none).map found := by
      intro sg n w r z h hf hz
      obtain ⟨t1, t2, t3, t4⟩ := digits_num h hf
      unfold expo
      rw [hz]
      simp only [t1, t3, t2, t4, false_or, hf, true_and]
      cases he : n.exp with
      | some p => simp
      | none => simp [found, Numeral.expText, he]
    cases r with
    | nil => rfl
    | cons t r =>
      obtain ⟨h1, h2, h3⟩ := lexed_cons h
      obtain ⟨x, xs, e, hsp, hx⟩ := text_cons (r := r) h1
      cases t with
      | num n w =>
        have hm : x ≠ '-' := by
          rcases hx with hx | rfl
          · exact (digit_other hx).2.2.2.2.2
          · decide
        have hsig : signTok (.num n w :: r) = ([], .num n w :: r) := rfl
        rw [hsig]
        exact num [] n w r _ h (hs _ _ _ _ hsig) (by rw [e]; exact sign_other hm)
      | name n w =>
        have hm := name_not hx.2
        rw [e, expo_nil_of (by rw [sign_other hm.2.2.2.1]) (by rintro x xs e; cases e; exact hx.1)]
        rfl
      | sym s w =>
        by_cases hmin : s = .minus
        · subst hmin
          have es : text (.sym .minus w :: r) = '-' :: (w ++ text r) := rfl
          cases hw : w with
          | nil =>
            rw [hw] at es
            rw [es]
            simp only [List.nil_append]
            cases r with
            | nil => rfl
            | cons t' r' =>
              obtain ⟨x', xs', e', hsp', hx'⟩ := text_cons (r := r') (lexed_cons h2).1
              cases t' with
              | num n w' =>
                have hsig : signTok (.sym .minus [] :: .num n w' :: r') = (['-'], .num n w' :: r') := rfl
                rw [hsig]
                exact num ['-'] n w' r' _ h2 (hs _ _ _ _ (by rw [hw]; exact hsig)) rfl
              | name n w' =>
                have hm := name_not hx'.2
                simp only [signTok]
                unfold expo
                rw [if_pos]
                · rfl
                · left
                  simp [sign, e', List.takeWhile_cons, hx'.1]
              | sym s' w' =>
                simp only [signTok]
                unfold expo
                rw [if_pos]
                · rfl
                · left
                  simp only [sign, e']
                  cases s' <;> (simp only [Sym.text, List.head?_cons, Option.some.injEq] at hx'; subst hx'; rfl)
          | cons y ys =>
            have hb := wf_blanks h1
            simp only [Tok.blanks] at hb
            rw [hw] at hb
            simp only [List.all_cons, Bool.and_eq_true] at hb
            rw [hw] at es
            rw [es]
            have : signTok (.sym .minus (y :: ys) :: r) = ([], .sym .minus (y :: ys) :: r) := rfl
            rw [this]
            unfold expo
            rw [if_pos]
            · rfl
            · left
              simp [sign, List.takeWhile_cons, (isDigit_not_space hb.1).1]
        · have : signTok (.sym s w :: r) = ([], .sym s w :: r) := by
            unfold signTok
            split
            · rename_i e; cases e; exact absurd rfl hmin
            · rfl
          rw [this, e]
          simp only
          rw [expo_nil_of]
          · rfl
          · rw [sign_other]
            cases s <;> simp only [Sym.text, List.head?_cons, Option.some.injEq] at hx <;> subst hx <;> first | decide | exact absurd rfl hmin
          · rintro x xs e
            cases e
            cases s <;> simp only [Sym.text, List.head?_cons, Option.some.injEq] at hx <;> subst hx <;> decide
  have conv : ∀ r, expTok r = (match signTok (plusTok r) with
      | (sg, .num k w :: r') => some (sg, k, w, r')
      | _ => none) := fun _ => rfl
  have fin : ∀ q : List Char × List Tok, ((match q with
        | (sg, .num k w :: r') => if k.frac = none ∧ k.exp = none then some (sg, k.int, w, r') else none
        | _ => none) : Option (List Char × List Char × List Char × List Tok)) =
      match (match q with
        | (sg, .num k w :: r') => some (sg, k, w, r')
        | _ => none : Option (List Char × Numeral × List Char × List Tok)) with
      | some (sg, k, w, r') => if k.frac = none ∧ k.exp = none then some (sg, k.int, w, r') else none
      | none => none := by
    rintro ⟨sg, _ | ⟨_ | _ | _, r⟩⟩ <;> rfl
  have hs' : ∀ sg k w r', signTok (plusTok r) = (sg, .num k w :: r') → k.frac = none := by
    intro sg k w r' e
    refine hs sg k w r' ?_
    rw [conv, e]
  rw [conv, ← fin]
  cases r with
  | nil => rfl
  | cons t r =>
    obtain ⟨h1, h2, h3⟩ := lexed_cons h
    obtain ⟨x, xs, e, hsp, hx⟩ := text_cons (r := r) h1
    by_cases hp : ∃ w, t = .sym .plus w
    · obtain ⟨w, rfl⟩ := hp
      have es : plus (text (.sym .plus w :: r)) = w ++ text r := rfl
      rw [es]
      cases w with
      | nil =>
        have hpt : plusTok (.sym .plus [] :: r) = r := rfl
        rw [hpt] at hs' ⊢
        exact key r h2 hs'
      | cons y ys =>
        have hb := wf_blanks h1
        simp only [Tok.blanks, List.all_cons, Bool.and_eq_true] at hb
        have hpt : signTok (plusTok (.sym .plus (y :: ys) :: r)) = ([], .sym .plus (y :: ys) :: r) := rfl
        rw [hpt]
        simp only [List.cons_append]
        obtain ⟨q1, _, _, _, q5, _⟩ := isDigit_not_space hb.1
        rw [expo_nil_of (by rw [sign_other q5]) (by rintro x xs e; cases e; exact q1)]
        rfl
    · have hpt : plusTok (t :: r) = t :: r := by
        unfold plusTok
        split
        · rename_i e; cases e; exact absurd ⟨_, rfl⟩ hp
        · rfl
      have hx' : x ≠ '+' := by
        cases t with
        | num n w =>
          rcases hx with hx | rfl
          · exact (digit_other hx).2.2.2.2.1
          · decide
        | name n w => exact (name_not hx.2).2.2.1
        | sym s w =>
          rintro rfl
          cases s <;> simp [Sym.text] at hx
          exact hp ⟨_, rfl⟩
      rw [e, plus_other hx', ← e]
      rw [hpt] at hs' ⊢
      exact key _ h hs'

end Verif.SciNotation
