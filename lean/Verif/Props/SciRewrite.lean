import Verif.Props.SciTokens
/-!
# `_scientific_notation_preprocessor` rewrites tokens
-/

set_option linter.unusedSimpArgs false
set_option linter.unusedVariables false

namespace Verif.SciNotation
open Verif.Py Verif.Regex

/-- only the stars begin with a star -/
theorem head_star {t : Tok} {r : List Tok} {xs : List Char} (h : t.wf = true) (e : text (t :: r) = '*' :: xs) : ∃ w, t = .sym .star w ∨ t = .sym .pow w := by
  obtain ⟨x, ys, e', _, hx⟩ := text_cons (r := r) h
  rw [e'] at e
  cases e
  cases t with
  | num n w => rcases hx with hx | hx <;> exact absurd hx (by decide)
  | name n w => exact absurd rfl (name_not hx.2).1
  | sym s w => cases s <;> simp [Sym.text] at hx <;> simp

theorem head_caret {t : Tok} {r : List Tok} {xs : List Char} (h : t.wf = true) (e : text (t :: r) = '^' :: xs) : ∃ w, t = .sym .caret w := by
  obtain ⟨x, ys, e', _, hx⟩ := text_cons (r := r) h
  rw [e'] at e
  cases e
  cases t with
  | num n w => rcases hx with hx | hx <;> exact absurd hx (by decide)
  | name n w => exact absurd rfl (name_not hx.2).2.1
  | sym s w => cases s <;> simp [Sym.text] at hx <;> simp

theorem powInt_some {s : Sym} {w : List Char} {r : List Tok} (hs : s = .pow ∨ s = .caret) : powInt (.sym s w :: r) = (match expTok r with
      | some (sg, k, w, r') => if k.frac = none ∧ k.exp = none then some (sg, k.int, w, r') else none
      | none => none) := by
  rcases hs with rfl | rfl <;> rfl

/-- `\s*(?:\*{2}|\^)\s*\+?(-?\d+\b)` and the tokens -/
theorem afterTen0_tok {w : List Char} {r : List Tok} (hw : w.all isSpace = true) (h : lexed r = true)
    (hs : ∀ sg k w r', powTok r = some (sg, k, w, r') → k.frac = none) : afterTen0 (w ++ text r) = (powInt r).map found := by
  unfold afterTen0
  rw [drop_blanks hw h]
  cases r with
  | nil => rfl
  | cons t r =>
    obtain ⟨h1, h2, h3⟩ := lexed_cons h
    by_cases hp : ∃ w, t = .sym .pow w
    · obtain ⟨w', rfl⟩ := hp
      have e : text (.sym .pow w' :: r) = '*' :: '*' :: (w' ++ text r) := rfl
      rw [e, powInt_some (.inl rfl)]
      show power0 (w' ++ text r) = _
      unfold power0
      rw [drop_blanks (w := w') (wf_blanks h1) h2]
      exact expo_tok h2 hs
    · by_cases hc : ∃ w, t = .sym .caret w
      · obtain ⟨w', rfl⟩ := hc
        have e : text (.sym .caret w' :: r) = '^' :: (w' ++ text r) := rfl
        rw [e, powInt_some (.inr rfl)]
        show power0 (w' ++ text r) = _
        unfold power0
        rw [drop_blanks (w := w') (wf_blanks h1) h2]
        exact expo_tok h2 hs
      · have hn : powInt (t :: r) = none := by
          unfold powInt powTok
          split
          · rename_i e
            split at e
            · rename_i e'; cases e'; exact absurd ⟨_, rfl⟩ hp
            · rename_i e'; cases e'; exact absurd ⟨_, rfl⟩ hc
            · cases e
          · rfl
        rw [hn]
        split
        · rename_i e
          obtain ⟨w', rfl | rfl⟩ := head_star h1 e
          · have e2 : text (.sym .star w' :: r) = '*' :: (w' ++ text r) := rfl
            rw [e2] at e
            injection e with _ e
            cases w' with
            | cons y ys =>
              have hb := wf_blanks h1
              simp only [Tok.blanks, List.all_cons, Bool.and_eq_true] at hb
              cases e
              exact absurd hb.1 (by decide)
            | nil =>
              simp only [List.nil_append] at e
              cases r with
              | nil => cases e
              | cons t' r' =>
                have ha := h3 _ _ rfl
                obtain ⟨w', rfl | rfl⟩ := head_star (lexed_cons h2).1 e
                · exact absurd ha (by simp [apart])
                · exact absurd ha (by simp [apart])
          · exact absurd ⟨_, rfl⟩ hp
        · rename_i e
          obtain ⟨w', rfl⟩ := head_caret h1 e
          exact absurd ⟨_, rfl⟩ hc
        · rfl

theorem safe_ten {r : List Tok} (h : safeHere .ten r = true) : ∀ sg k w r', powTok r = some (sg, k, w, r') → k.frac = none := by
  intro sg k w r' e
  simp only [safeHere, Bool.and_eq_true, e] at h
  have := h.2
  simp at this
  exact this.1

/-- `\s*\*\s*10...` and the tokens -/
theorem times0_tok {w : List Char} {r : List Tok} (hw : w.all isSpace = true) (h : lexed r = true) (hs : safe r = true) :
    times0 (w ++ text r) = (tenTail r).map found := by
  unfold times0
  rw [drop_blanks hw h]
  cases r with
  | nil => rfl
  | cons t r =>
    obtain ⟨h1, h2, h3⟩ := lexed_cons h
    by_cases hp : ∃ w, t = .sym .star w
    · obtain ⟨w', rfl⟩ := hp
      have e : text (.sym .star w' :: r) = '*' :: (w' ++ text r) := rfl
      rw [e]
      simp only
      rw [drop_blanks (w := w') (wf_blanks h1) h2]
      cases r with
      | nil => rfl
      | cons t r =>
        obtain ⟨q1, q2, q3⟩ := lexed_cons h2
        have other : ∀ x xs, text (t :: r) = x :: xs → x.isDigit = false → ten0 (text (t :: r)) = none := by
          intro x xs e hx
          rw [e]
          have := ten0_digits (ds := []) (z := x :: xs) rfl (by rintro x xs e; cases e; exact hx)
          simpa using this
        obtain ⟨x, xs, e', _, hx⟩ := text_cons (r := r) q1
        cases t with
        | name n w => rw [other x xs e' hx.1]; rfl
        | sym s w =>
          rw [other x xs e']
          · rfl
          · cases s <;> simp only [Sym.text, List.head?_cons, Option.some.injEq] at hx <;> subst hx <;> decide
        | num n w2 =>
          simp only [tenTail]
          simp only [safe, Bool.and_eq_true] at hs
          split
          · rename_i e10
            subst e10
            show afterTen0 (w2 ++ text r) = _
            exact afterTen0_tok (wf_blanks q1) q2 (safe_ten hs.1)
          · rename_i e10
            have hwf := q1
            simp only [Tok.wf, Numeral.wf, Bool.and_eq_true] at hwf
            have e3 : text (.num n w2 :: r) = n.int ++ (n.fracText ++ (n.expText ++ (w2 ++ text r))) := by
              simp [text, Tok.body, Tok.blanks, Numeral.text, Numeral.mant]
            have ha := after_word (t := .num n w2) rfl h2
            have hz : ∀ x xs, n.fracText ++ (n.expText ++ (w2 ++ text r)) = x :: xs → x.isDigit = false := by
              intro x xs e
              unfold Numeral.fracText at e
              split at e
              · unfold Numeral.expText at e
                split at e
                · exact not_digit (ha x xs e).1
                · cases e; decide
              · cases e; decide
            rw [e3, ten0_digits hwf.2.1.1 hz]
            split
            · rename_i e4
              have : afterTen0 (n.fracText ++ (n.expText ++ (w2 ++ text r))) = none := by
                unfold Numeral.fracText
                cases hf : n.frac with
                | some f => exact afterTen0_none (by decide) (by decide) (by decide)
                | none =>
                  unfold Numeral.expText
                  cases he : n.exp with
                  | some f => exact afterTen0_none (by decide) (by decide) (by decide)
                  | none => exact absurd (by cases n; simp only at hf he e4; subst hf; subst he; subst e4; rfl) e10
              rw [this]; rfl
            · rfl
    · have hn : tenTail (t :: r) = none := by
        unfold tenTail
        split
        · rename_i e; cases e; exact absurd ⟨_, rfl⟩ hp
        · rfl
      rw [hn]
      split
      · rename_i e
        obtain ⟨w', rfl | rfl⟩ := head_star h1 e
        · exact absurd ⟨_, rfl⟩ hp
        · have e2 : text (.sym .pow w' :: r) = '*' :: '*' :: (w' ++ text r) := rfl
          rw [e2] at e
          injection e with _ e
          rw [← e]
          rfl
      · rfl

theorem lexed_suffix {p r : List Tok} (h : lexed (p ++ r) = true) : lexed r = true := by
  induction p with
  | nil => exact h
  | cons t p ih => exact ih (lexed_cons h).2.1

theorem safe_suffix {p r : List Tok} (h : safe (p ++ r) = true) : safe r = true := by
  induction p with
  | nil => exact h
  | cons t p ih =>
    cases t with
    | num n w => simp only [List.cons_append, safe, Bool.and_eq_true] at h; exact ih h.2
    | name n w => exact ih h
    | sym n w => exact ih h

/-- the exponent is a number of the list -/
theorem expTok_split {r r' : List Tok} {sg w : List Char} {k : Numeral} (h : expTok r = some (sg, k, w, r')) :
    (∃ p, r = p ++ .num k w :: r') ∧ (sg = [] ∨ sg = ['-']) := by
  have h1 : ∃ p, r = p ++ plusTok r := by
    unfold plusTok
    split
    · exact ⟨[_], rfl⟩
    · exact ⟨[], rfl⟩
  obtain ⟨p, hp⟩ := h1
  unfold expTok at h
  generalize plusTok r = z at h hp
  have h2 : (∃ p, z = p ++ (signTok z).2) ∧ ((signTok z).1 = [] ∨ (signTok z).1 = ['-']) := by
    unfold signTok
    split
    · exact ⟨⟨[_], rfl⟩, .inr rfl⟩
    · exact ⟨⟨[], rfl⟩, .inl rfl⟩
  obtain ⟨⟨q, hq⟩, hs⟩ := h2
  split at h
  · rename_i e
    cases h
    rw [e] at hq hs
    exact ⟨⟨p ++ q, by rw [hp, hq, List.append_assoc]⟩, hs⟩
  · cases h

theorem powInt_split {r r' : List Tok} {sg ds w : List Char} (h : powInt r = some (sg, ds, w, r')) :
    ∃ p k, r = p ++ .num k w :: r' ∧ (sg = [] ∨ sg = ['-']) ∧ k.int = ds ∧ k.frac = none ∧ k.exp = none := by
  unfold powInt at h
  split at h
  · rename_i sg' k w' r'' e
    split at h
    · rename_i hk
      cases h
      unfold powTok at e
      split at e
      · obtain ⟨⟨p, rfl⟩, hs⟩ := expTok_split e; exact ⟨_ :: p, k, rfl, hs, rfl, hk⟩
      · obtain ⟨⟨p, rfl⟩, hs⟩ := expTok_split e; exact ⟨_ :: p, k, rfl, hs, rfl, hk⟩
      · cases e
    · cases h
  · cases h

theorem tenTail_split {r r' : List Tok} {sg ds w : List Char} (h : tenTail r = some (sg, ds, w, r')) :
    ∃ p k, r = p ++ .num k w :: r' ∧ (sg = [] ∨ sg = ['-']) ∧ k.int = ds ∧ k.frac = none ∧ k.exp = none := by
  unfold tenTail at h
  split at h
  · split at h
    · obtain ⟨p, k, rfl, hk⟩ := powInt_split h
      exact ⟨_ :: _ :: p, k, rfl, hk⟩
    · cases h
  · cases h

/-- does the list go on with a word? -/
def headWord : List Tok → Bool
  | [] => false
  | t :: _ => t.word

/-- the walk over the tokens -/
theorem scan_toks (m : Nat) (toks : List Tok) (hm : toks.length ≤ m) (hl : lexed toks = true) (hs : safe toks = true) (b : Bool) (hb : b = true → headWord toks = false) :
    scan b (text toks) = text (rewrite toks) := by
  induction m generalizing toks b with
  | zero =>
    have : toks = [] := by cases toks with | nil => rfl | cons x xs => simp at hm
    subst this
    rfl
  | succ m ih =>
    -- after a token
    have after : ∀ (b : Bool) (w : List Char) (r : List Tok), r.length ≤ m → w.all isSpace = true → lexed r = true → safe r = true →
        (b = true → w = [] → headWord r = false) → scan b (w ++ text r) = w ++ text (rewrite r) := by
      intro b w r hm hw hl hs hb
      rw [scan_space hw, ih r hm hl hs]
      intro h
      split at h
      · rename_i e; exact hb h e
      · cases h
    have wordEnd : ∀ (t : Tok) (r : List Tok), t.word = true → lexed (t :: r) = true → t.blanks = [] → headWord r = false := by
      intro t r ht h hw
      cases r with
      | nil => rfl
      | cons t' r' =>
        have ha := (lexed_cons h).2.2 t' r' rfl
        cases t with
        | num n w => simp only [Tok.blanks] at hw; subst hw; simpa [apart, headWord] using ha
        | name n w => simp only [Tok.blanks] at hw; subst hw; simpa [apart, headWord] using ha
        | sym n w => cases ht
    cases toks with
    | nil => rfl
    | cons t r =>
      simp only [List.length_cons, Nat.add_le_add_iff_right] at hm
      obtain ⟨h1, h2, h3⟩ := lexed_cons hl
      cases t with
      | name n w =>
        cases n with
        | nil => simp [Tok.wf] at h1
        | cons x xs =>
          have hw := h1
          simp only [Tok.wf, Bool.and_eq_true, Bool.not_eq_true', Tok.blanks] at hw
          simp only [rewrite_name, text, Tok.body, Tok.blanks, List.cons_append]
          rw [scan_other hw.2.1.1 (name_not hw.2.1.2).2.2.2.2, hw.2.1.2, scan_word hw.2.2,
            after true w r hm hw.1 h2 hs (fun _ hw => wordEnd _ _ rfl hl hw)]
      | sym s w =>
        have hw := wf_blanks h1
        simp only [Tok.blanks] at hw
        have hr := after false w r hm hw h2 hs (by simp)
        simp only [rewrite_sym, text, Tok.body, Tok.blanks]
        have f : ∀ c, c.isDigit = false → c ≠ '.' → isWord c = false → ∀ b z, scan b (c :: z) = c :: scan false z := by
          intro c h1 h2 h3 b z
          rw [scan_other h1 h2, h3]
        cases s <;> simp only [Sym.text, List.cons_append, List.nil_append]
        case dslash => rw [f '/' (by decide) (by decide) (by decide), f '/' (by decide) (by decide) (by decide), hr]
        case pow => rw [f '*' (by decide) (by decide) (by decide), f '*' (by decide) (by decide) (by decide), hr]
        all_goals rw [f _ (by decide) (by decide) (by decide), hr]
      | num n w =>
        have hbf : b = false := by
          cases b with
          | false => rfl
          | true => exact absurd (hb rfl) (by simp [headWord, Tok.word])
        subst hbf
        have hw := h1
        simp only [Tok.wf, Bool.and_eq_true, Tok.blanks] at hw
        simp only [safe, Bool.and_eq_true] at hs
        obtain ⟨hs1, hs2⟩ := hs
        have ht := times0_tok (w := w) hw.1 h2 hs2
        have noPow : startsPow r = false → afterTen0 (w ++ text r) = none := by
          intro h
          have hp : powTok r = none := by
            unfold powTok
            split
            · simp [startsPow] at h
            · simp [startsPow] at h
            · rfl
          rw [afterTen0_tok hw.1 h2 (by rw [hp]; simp)]
          simp [powInt, hp]
        have noTen : startsTimesTen r = false → tenTail r = none := by
          intro h
          unfold tenTail
          split
          · split
            · rename_i e; subst e; simp [startsTimesTen] at h
            · rfl
          · rfl
        have hexp : ∀ sg ds, n.exp = some (sg, ds) → sg ≠ [] → times0 (w ++ text r) = none ∧ (ds = ['1', '0'] → afterTen0 (w ++ text r) = none) := by
          intro sg ds he hsg
          have := hs1
          simp only [safeHere, Bool.and_eq_true, he, Bool.or_eq_true, beq_iff_eq, hsg, false_or, Bool.not_eq_true'] at this
          exact ⟨by rw [ht, noTen this.1.2.2]; rfl, fun _ => noPow this.1.2.1⟩
        have hfrac : n.frac = some ['1', '0'] → afterTen0 (w ++ text r) = none := by
          intro hf
          have := hs1
          simp only [safeHere, Bool.and_eq_true, hf, Bool.or_eq_true, bne_self_eq_false, Bool.false_eq_true, false_or, Bool.not_eq_true'] at this
          exact noPow this.1.1
        have hmain := scan_numeral hw.2 (after_word (t := .num n w) rfl hl) hexp hfrac
        have etext : text (.num n w :: r) = n.text ++ (w ++ text r) := rfl
        rw [etext, rewrite_num]
        simp only [Tok.blanks] at hmain
        rw [hmain, ht]
        -- after a match
        have matched : ∀ sg ds w' r' p k, r = p ++ .num k w' :: r' → (sg = [] ∨ sg = ['-']) → k.int = ds → k.frac = none → k.exp = none →
            scan true (w' ++ text r') = w' ++ text (rewrite r') := by
          intro sg ds w' r' p k hr _ _ _ _
          have hl' : lexed (.num k w' :: r') = true := lexed_suffix (p := p) (hr ▸ h2)
          have hs' : safe (.num k w' :: r') = true := safe_suffix (p := p) (hr ▸ hs2)
          simp only [safe, Bool.and_eq_true] at hs'
          have hlen : r'.length ≤ m := by
            have : r.length = p.length + (r'.length + 1) := by rw [hr]; simp
            omega
          exact after true w' r' hlen (wf_blanks (t := .num k w') (lexed_cons hl').1) (lexed_cons hl').2.1 hs'.2 (fun _ hw => wordEnd _ _ rfl hl' hw)
        cases h5 : (if n.exp = none then tenTail r else none) with
        | some q =>
          obtain ⟨sg, ds, w', r'⟩ := q
          split at h5
          · rename_i he
            obtain ⟨p, k, hr, a1, a2, a3, a4⟩ := tenTail_split h5
            rw [if_pos he, h5]
            simp only [Option.map_some, found]
            rw [matched sg ds w' r' p k hr a1 a2 a3 a4]
            simp [text, Tok.body, Tok.blanks, Numeral.text, Numeral.mant, Numeral.fracText, Numeral.expText]
          · cases h5
        | none =>
          have : (if n.exp = none then Option.map found (tenTail r) else none) = none := by
            split
            · rename_i e; rw [if_pos e] at h5; rw [h5]; rfl
            · rfl
          rw [this]
          simp only
          by_cases h10 : n = .ten
          · subst h10
            rw [if_pos rfl, if_pos rfl, afterTen0_tok hw.1 h2 (safe_ten hs1)]
            cases h6 : powInt r with
            | some q =>
              obtain ⟨sg, ds, w', r'⟩ := q
              obtain ⟨p, k, hr, a1, a2, a3, a4⟩ := powInt_split h6
              simp only [Option.map_some, found]
              rw [matched sg ds w' r' p k hr a1 a2 a3 a4]
              simp [text, Tok.body, Tok.blanks, Numeral.text, Numeral.mant, Numeral.fracText, Numeral.expText]
            | none =>
              simp only [Option.map_none]
              rw [after true w r hm hw.1 h2 hs2 (fun _ hw => wordEnd _ _ rfl hl hw)]
              rfl
          · rw [if_neg h10, if_neg h10]
            simp only
            rw [after true w r hm hw.1 h2 hs2 (fun _ hw => wordEnd _ _ rfl hl hw)]
            rfl

/-- the preprocessor rewrites the tokens -/
theorem preprocess_text {toks : List Tok} (hl : lexed toks = true) (hs : safe toks = true) : preprocess (text toks) = text (rewrite toks) := by
  rw [preprocess_scan]
  exact scan_toks toks.length toks (Nat.le_refl _) hl hs false (by simp)

end Verif.SciNotation
