import Verif.Model.Markup
/-!
# C70: cleaned and marked-up formulas mean the same
-/

namespace Verif.Markup
open Verif.Strings

/-! ## The specification -/

/-- a symbol and the amount behind it -/
structure Term where
  symbol : List Char
  amount : List Char

/-- the text of a formula -/
def text (l : List Term) : List Char := l.flatMap (fun t => t.symbol ++ t.amount)

/-- a symbol is made of letters, an amount of digits and dots, and may be absent -/
def Formula (digit : Char → Bool) (l : List Term) : Prop := ∀ t ∈ l, t.symbol ≠ [] ∧ (∀ c ∈ t.symbol, letter c = true) ∧ ∀ c ∈ t.amount, digit c = true ∨ c = '.'

/-- `\d` is true of no letter and not of a newline -/
structure Digits (digit : Char → Bool) : Prop where
  letter : ∀ c, letter c = true → digit c = false
  newline : digit '\n' = false

/-- leave out an amount of one -/
def Term.tidy (t : Term) : Term := ⟨t.symbol, if t.amount = ['1'] then [] else t.amount⟩

/-- an amount as an index -/
def Term.marked (t : Term) : List Char := t.symbol ++ if t.amount = [] ∨ t.amount = ['1'] then [] else "$_{".toList ++ t.amount ++ "}$".toList

/-! ## All strings -/

theorem cleanFrom_cons (p : Option Char) (c : Char) (cs : List Char) : cleanFrom p (c :: cs) =
    if c = '1' ∧ behind p = true ∧ ahead cs = true then cleanFrom (some c) cs else c :: cleanFrom (some c) cs := rfl

theorem not_letter_one : letter '1' = false := by decide

theorem clean_ones (p : Option Char) (s : List Char) : (cleanFrom p s).Sublist s ∧ (cleanFrom p s).filter (fun c => c ≠ '1') = s.filter (fun c => c ≠ '1') := by
  induction s generalizing p with
  | nil => simp [cleanFrom]
  | cons c cs ih =>
    rw [cleanFrom_cons]
    split
    · rename_i h
      obtain ⟨h1, h2⟩ := ih (some c)
      refine ⟨h1.cons _, ?_⟩
      rw [h2, h.1]
      simp
    · obtain ⟨h1, h2⟩ := ih (some c)
      refine ⟨h1.cons_cons _, ?_⟩
      simp only [List.filter_cons, h2]

/-- C70: `formula_clean` does nothing but leave out ones. -/
theorem C70_clean_ones (s : List Char) : (clean s).Sublist s ∧ (clean s).filter (fun c => c ≠ '1') = s.filter (fun c => c ≠ '1') := clean_ones none s

theorem ahead_clean (p : Option Char) (s : List Char) (hp : behind p = false) : ahead (cleanFrom p s) = ahead s := by
  cases s with
  | nil => rfl
  | cons c cs =>
    rw [cleanFrom_cons, if_neg (by simp [hp])]
    simp only [ahead]
    by_cases hl : letter c = true
    · simp [hl]
    · by_cases hn : c = '\n'
      · subst hn
        have : (cleanFrom (some '\n') cs).isEmpty = cs.isEmpty := by
          cases cs with
          | nil => rfl
          | cons d ds => rw [cleanFrom_cons, if_neg (by simp [behind]; intro _ h; exact absurd h (by decide))]; simp
        simp [this]
      · simp [hl, hn]

theorem clean_again (n : Nat) : ∀ (s : List Char) (p q : Option Char), s.length ≤ n → behind q = behind p → cleanFrom q (cleanFrom p s) = cleanFrom p s := by
  induction n with
  | zero =>
    intro s p q h _
    cases s with
    | nil => rfl
    | cons c cs => simp at h
  | succ n ih =>
    intro s p q hl h
    cases s with
    | nil => rfl
    | cons c cs =>
      simp only [List.length_cons, Nat.add_le_add_iff_right] at hl
      rw [cleanFrom_cons]
      split
      · rename_i hc
        obtain ⟨rfl, _, ha⟩ := hc
        cases cs with
        | nil => rfl
        | cons d ds =>
          simp only [List.length_cons] at hl
          have hd : d ≠ '1' := by
            rintro rfl
            simp [ahead, not_letter_one] at ha
          rw [cleanFrom_cons, if_neg (by simp [hd]), cleanFrom_cons, if_neg (by simp [hd]), ih ds _ _ (by omega) rfl]
      · rename_i hc
        have : ¬ (c = '1' ∧ behind q = true ∧ ahead (cleanFrom (some c) cs) = true) := by
          rintro ⟨rfl, h1, h2⟩
          rw [ahead_clean _ _ (by decide)] at h2
          exact hc ⟨rfl, h ▸ h1, h2⟩
        rw [cleanFrom_cons, if_neg this, ih cs _ _ hl rfl]

/-- C70: cleaning twice is cleaning once. -/
theorem C70_clean_again (s : List Char) : clean (clean s) = clean s := clean_again s.length s none none (Nat.le_refl _) rfl

/-- C70: so `formula_latex` does not care whether its formula is clean. -/
theorem C70_latex_clean (digit : Char → Bool) (s : List Char) : latex digit (clean s) = latex digit s := by
  unfold latex
  rw [C70_clean_again]

/-- the characters of the markup -/
def mark (c : Char) : Bool := decide (c = '$' ∨ c = '_' ∨ c = '{' ∨ c = '}')

theorem latexFrom_cons (digit : Char → Bool) (p : Option Char) (c : Char) (cs : List Char) : latexFrom digit p (c :: cs) =
    if behind p = true ∧ amountChar digit c = true ∧ ahead (cs.dropWhile (amountChar digit)) = true then
      "$_{".toList ++ c :: cs.takeWhile (amountChar digit) ++ "}$".toList ++
        latexFrom digit ((c :: cs.takeWhile (amountChar digit)).getLast?) (cs.dropWhile (amountChar digit))
    else c :: latexFrom digit (some c) cs := by rw [latexFrom]

theorem latex_strip (digit : Char → Bool) (n : Nat) : ∀ (s : List Char) (p : Option Char), s.length ≤ n → (∀ c ∈ s, mark c = false) →
    (latexFrom digit p s).filter (fun c => !mark c) = s := by
  induction n with
  | zero =>
    intro s p h _
    cases s with
    | nil => simp [latexFrom]
    | cons c cs => simp at h
  | succ n ih =>
    intro s p hl h
    cases s with
    | nil => simp [latexFrom]
    | cons c cs =>
      simp only [List.length_cons, Nat.add_le_add_iff_right] at hl
      have hcs : ∀ d ∈ cs, mark d = false := fun d hd => h d (by simp [hd])
      rw [latexFrom_cons]
      split
      · have hlen := (List.dropWhile_suffix (amountChar digit) (l := cs)).length_le
        have hd : ∀ d ∈ cs.dropWhile (amountChar digit), mark d = false := fun d hd => hcs d ((List.dropWhile_suffix _).subset hd)
        have ht : (cs.takeWhile (amountChar digit)).filter (fun c => !mark c) = cs.takeWhile (amountChar digit) := by
          rw [List.filter_eq_self]
          intro d hd
          simp [hcs d ((List.takeWhile_prefix _).subset hd)]
        rw [List.filter_append, ih _ _ (by omega) hd, List.filter_append, List.filter_append, List.filter_cons, h c (by simp), ht]
        have e1 : ("$_{".toList).filter (fun c => !mark c) = [] := by decide
        have e2 : ("}$".toList).filter (fun c => !mark c) = [] := by decide
        rw [e1, e2]
        simp
      · rw [List.filter_cons, h c (by simp), ih _ _ hl hcs]
        simp

/-- C70: `formula_latex` adds markup to the cleaned formula and changes nothing else. -/
theorem C70_latex_markup (digit : Char → Bool) (s : List Char) (h : ∀ c ∈ s, mark c = false) : (latex digit s).filter (fun c => !mark c) = clean s :=
  latex_strip digit _ _ none (Nat.le_refl _) (fun c hc => h c ((C70_clean_ones s).1.subset hc))

/-! ## Formulas -/

theorem letter_ne_one {c : Char} (h : letter c = true) : c ≠ '1' := by
  rintro rfl
  simp [not_letter_one] at h

theorem clean_letters (p : Option Char) (xs r : List Char) (h : ∀ c ∈ xs, letter c = true) (hx : xs ≠ []) : ∃ q, behind q = true ∧
    cleanFrom p (xs ++ r) = xs ++ cleanFrom q r := by
  induction xs generalizing p with
  | nil => exact absurd rfl hx
  | cons c cs ih =>
    have hc := h c (by simp)
    rw [List.cons_append, cleanFrom_cons, if_neg (by simp [letter_ne_one hc])]
    cases cs with
    | nil => exact ⟨some c, hc, rfl⟩
    | cons d ds =>
      obtain ⟨q, h1, h2⟩ := ih (some c) (fun c hc => h c (by simp [hc])) (by simp)
      exact ⟨q, h1, by rw [h2]; rfl⟩

variable {digit : Char → Bool}

theorem amount_not_letter (hd : Digits digit) {c : Char} (h : digit c = true ∨ c = '.') : letter c = false := by
  rcases h with h | rfl
  · cases hl : letter c with
    | false => rfl
    | true => rw [hd.letter c hl] at h; cases h
  · decide

theorem amount_not_newline (hd : Digits digit) {c : Char} (h : digit c = true ∨ c = '.') : c ≠ '\n' := by
  rintro rfl
  rcases h with h | h
  · rw [hd.newline] at h; cases h
  · exact absurd h (by decide)

/-- behind an amount nothing is dropped until the next letter -/
theorem clean_tail (hd : Digits digit) (p : Option Char) (xs r : List Char) (hp : behind p = false) (h : ∀ c ∈ xs, digit c = true ∨ c = '.') : ∃ q, behind q = false ∧
    cleanFrom p (xs ++ r) = xs ++ cleanFrom q r := by
  induction xs generalizing p with
  | nil => exact ⟨p, hp, rfl⟩
  | cons c cs ih =>
    rw [List.cons_append, cleanFrom_cons, if_neg (by simp [hp])]
    obtain ⟨q, h1, h2⟩ := ih (some c) (amount_not_letter hd (h c (by simp))) (fun c hc => h c (by simp [hc]))
    exact ⟨q, h1, by rw [h2]; rfl⟩

theorem text_ahead (l : List Term) (h : Formula digit l) : ahead (text l) = true := by
  cases l with
  | nil => rfl
  | cons t l =>
    obtain ⟨h1, h2, _⟩ := h t (by simp)
    cases hs : t.symbol with
    | nil => exact absurd hs h1
    | cons c cs => simp [text, hs, ahead, h2 c (by simp [hs])]

theorem clean_text (hd : Digits digit) (l : List Term) (h : Formula digit l) : ∀ p, cleanFrom p (text l) = text (l.map Term.tidy) := by
  induction l with
  | nil => intro p; rfl
  | cons t l ih =>
    intro p
    have hl : Formula digit l := fun u hu => h u (by simp [hu])
    obtain ⟨h1, h2, h3⟩ := h t (by simp)
    have e : text (t :: l) = t.symbol ++ (t.amount ++ text l) := by simp [text]
    have e' : text ((t :: l).map Term.tidy) = t.symbol ++ ((if t.amount = ['1'] then [] else t.amount) ++ text (l.map Term.tidy)) := by simp [text, Term.tidy]
    obtain ⟨q, hq, e1⟩ := clean_letters p t.symbol (t.amount ++ text l) h2 h1
    rw [e, e', e1]
    congr 1
    split
    · rename_i ha
      rw [ha]
      simp only [List.cons_append, List.nil_append]
      rw [cleanFrom_cons, if_pos ⟨rfl, hq, text_ahead l hl⟩, ih hl]
    · rename_i ha
      cases hA : t.amount with
      | nil => simp [ih hl]
      | cons c cs =>
        rw [List.cons_append, cleanFrom_cons, if_neg]
        · obtain ⟨q', _, e2⟩ := clean_tail hd (some c) cs (text l) (amount_not_letter hd (h3 c (by simp [hA]))) (fun d hd' => h3 d (by simp [hA, hd']))
          rw [e2, ih hl]
          rfl
        · rintro ⟨rfl, _, hah⟩
          cases cs with
          | nil => exact ha hA
          | cons d ds =>
            have hd' := h3 d (by simp [hA])
            simp [ahead, amount_not_letter hd hd', amount_not_newline hd hd'] at hah

/-- C70: in a formula made of symbols and amounts, `formula_clean` leaves out the amounts that are 1, and only these. -/
theorem C70_clean (hd : Digits digit) (l : List Term) (h : Formula digit l) : clean (text l) = text (l.map Term.tidy) := clean_text hd l h none

theorem latex_letters (p : Option Char) (xs r : List Char) (hd : Digits digit) (h : ∀ c ∈ xs, letter c = true) (hx : xs ≠ []) : ∃ q, behind q = true ∧
    latexFrom digit p (xs ++ r) = xs ++ latexFrom digit q r := by
  induction xs generalizing p with
  | nil => exact absurd rfl hx
  | cons c cs ih =>
    have hc := h c (by simp)
    have : amountChar digit c = false := by
      cases ha : amountChar digit c with
      | false => rfl
      | true =>
        simp only [amountChar, Bool.or_eq_true, decide_eq_true_eq] at ha
        rw [amount_not_letter hd ha] at hc
        cases hc
    rw [List.cons_append, latexFrom_cons, if_neg (by simp [this])]
    cases cs with
    | nil => exact ⟨some c, hc, rfl⟩
    | cons d ds =>
      obtain ⟨q, h1, h2⟩ := ih (some c) (fun c hc => h c (by simp [hc])) (by simp)
      exact ⟨q, h1, by rw [h2]; rfl⟩

theorem text_split (hd : Digits digit) (l : List Term) (h : Formula digit l) (xs : List Char) (hx : ∀ c ∈ xs, digit c = true ∨ c = '.') :
    (xs ++ text l).takeWhile (amountChar digit) = xs ∧ (xs ++ text l).dropWhile (amountChar digit) = text l := by
  have hxs : ∀ c ∈ xs, amountChar digit c = true := fun c hc => by simpa [amountChar] using hx c hc
  have : (text l).takeWhile (amountChar digit) = [] ∧ (text l).dropWhile (amountChar digit) = text l := by
    cases l with
    | nil => exact ⟨rfl, rfl⟩
    | cons t l =>
      obtain ⟨h1, h2, _⟩ := h t (by simp)
      cases hs : t.symbol with
      | nil => exact absurd hs h1
      | cons c cs =>
        have hc : amountChar digit c = false := by
          cases ha : amountChar digit c with
          | false => rfl
          | true =>
            simp only [amountChar, Bool.or_eq_true, decide_eq_true_eq] at ha
            have := h2 c (by simp [hs])
            rw [amount_not_letter hd ha] at this
            cases this
        simp [text, hs, hc]
  rw [List.takeWhile_append_of_pos hxs, List.dropWhile_append_of_pos hxs, this.1, this.2]
  simp

theorem latex_text (hd : Digits digit) (l : List Term) (h : Formula digit l) (h1 : ∀ t ∈ l, t.amount ≠ ['1']) : ∀ p, latexFrom digit p (text l) = l.flatMap Term.marked := by
  induction l with
  | nil => intro p; simp [text, latexFrom]
  | cons t l ih =>
    intro p
    have hl : Formula digit l := fun u hu => h u (by simp [hu])
    have ih := ih hl (fun u hu => h1 u (by simp [hu]))
    obtain ⟨k1, k2, k3⟩ := h t (by simp)
    have e : text (t :: l) = t.symbol ++ (t.amount ++ text l) := by simp [text]
    obtain ⟨q, hq, e1⟩ := latex_letters p t.symbol (t.amount ++ text l) hd k2 k1
    rw [e, e1, List.flatMap_cons, Term.marked, List.append_assoc]
    congr 1
    cases hA : t.amount with
    | nil => simp [ih]
    | cons c cs =>
      have hne : ¬ (c :: cs = [] ∨ c :: cs = ['1']) := by
        rintro (h | h)
        · cases h
        · exact h1 t (by simp) (hA.trans h)
      rw [if_neg hne]
      obtain ⟨s1, s2⟩ := text_split hd l hl cs (fun d hd' => k3 d (by simp [hA, hd']))
      rw [List.cons_append, latexFrom_cons, if_pos, s1, s2, ih]
      refine ⟨hq, by simpa [amountChar] using k3 c (by simp [hA]), ?_⟩
      rw [s2]
      exact text_ahead l hl

/-- C70: in a formula made of symbols and amounts, `formula_latex` marks every amount other than 1 as an index and leaves out the others. -/
theorem C70_latex (hd : Digits digit) (l : List Term) (h : Formula digit l) : latex digit (text l) = l.flatMap Term.marked := by
  unfold latex
  rw [C70_clean hd l h, latex_text hd _ ?_ ?_]
  · rw [List.flatMap_map]
    congr 1
    funext t
    unfold Term.marked Term.tidy
    by_cases ha : t.amount = ['1'] <;> simp [ha]
  · intro t ht
    obtain ⟨u, hu, rfl⟩ := List.mem_map.1 ht
    obtain ⟨k1, k2, k3⟩ := h u hu
    refine ⟨k1, k2, ?_⟩
    unfold Term.tidy
    simp only
    split
    · simp
    · exact k3
  · intro t ht
    obtain ⟨u, hu, rfl⟩ := List.mem_map.1 ht
    unfold Term.tidy
    simp only
    split
    · simp
    · assumption

/-! ## Elements -/

/-- no lower case letter behind a 1 -/
def Apart (s : List Char) : Prop := ∀ a b c, s = a ++ '1' :: c :: b → isLowerAscii c = false

theorem Apart.tail {c : Char} {cs : List Char} (h : Apart (c :: cs)) : Apart cs := fun a b d e => h (c :: a) b d (by rw [e]; rfl)

theorem Apart.drop {s : List Char} (h : Apart s) {t : List Char} (ht : t <:+ s) : Apart t := by
  obtain ⟨u, rfl⟩ := ht
  intro a b c e
  exact h (u ++ a) b c (by rw [e]; simp)

/-- does it begin with a lower case letter? -/
def low : List Char → Bool
  | c :: _ => isLowerAscii c
  | [] => false

theorem low_clean (s : List Char) (p : Option Char) (h : Apart s) (hl : low s = false) : low (cleanFrom p s) = false := by
  cases s with
  | nil => rfl
  | cons c cs =>
    rw [cleanFrom_cons]
    split
    · rename_i hc
      obtain ⟨rfl, _, _⟩ := hc
      cases cs with
      | nil => rfl
      | cons d ds =>
        rw [cleanFrom_cons, if_neg (by simp [behind, not_letter_one])]
        exact h [] ds d rfl
    · exact hl

theorem take_low (xs r : List Char) (hx : ∀ c ∈ xs, isLowerAscii c = true) (hr : low r = false) : (xs ++ r).takeWhile isLowerAscii = xs ∧
    (xs ++ r).dropWhile isLowerAscii = r := by
  rw [List.takeWhile_append_of_pos hx, List.dropWhile_append_of_pos hx]
  cases r with
  | nil => simp
  | cons c cs => simp only [low] at hr; simp [hr]

theorem elements_upper {c : Char} (cs : List Char) (h : isUpperAscii c = true) :
    elements (c :: cs) = (c :: cs.takeWhile isLowerAscii) :: elements (cs.dropWhile isLowerAscii) := by rw [elements, if_pos h]

theorem elements_other {c : Char} (cs : List Char) (h : isUpperAscii c = false) : elements (c :: cs) = elements cs := by rw [elements, if_neg (by simp [h])]

theorem low_drop (s : List Char) : low (s.dropWhile isLowerAscii) = false := by
  induction s with
  | nil => rfl
  | cons c cs ih =>
    rw [List.dropWhile_cons]
    split
    · exact ih
    · rename_i h
      simpa [low] using h

theorem mem_takeWhile {p : Char → Bool} {s : List Char} {c : Char} (h : c ∈ s.takeWhile p) : p c = true := by
  induction s with
  | nil => simp at h
  | cons d ds ih =>
    rw [List.takeWhile_cons] at h
    split at h
    · rcases List.mem_cons.1 h with rfl | h
      · assumption
      · exact ih h
    · simp at h

theorem clean_low (p : Option Char) (s : List Char) : ∃ q, cleanFrom p s = s.takeWhile isLowerAscii ++ cleanFrom q (s.dropWhile isLowerAscii) := by
  by_cases hx : s.takeWhile isLowerAscii = []
  · refine ⟨p, ?_⟩
    have := List.takeWhile_append_dropWhile (p := isLowerAscii) (l := s)
    rw [hx, List.nil_append] at this
    rw [hx, this]
    rfl
  · obtain ⟨q, _, e⟩ := clean_letters p (s.takeWhile isLowerAscii) (s.dropWhile isLowerAscii) (fun c hc => by
      have := mem_takeWhile hc
      simp [letter, this]) hx
    rw [List.takeWhile_append_dropWhile] at e
    exact ⟨q, e⟩

theorem elements_clean (n : Nat) : ∀ (s : List Char) (p : Option Char), s.length ≤ n → Apart s → elements (cleanFrom p s) = elements s := by
  induction n with
  | zero =>
    intro s p hl h
    cases s with
    | nil => rfl
    | cons c cs => simp at hl
  | succ n ih =>
    intro s p hl h
    cases s with
    | nil => rfl
    | cons c cs =>
      simp only [List.length_cons, Nat.add_le_add_iff_right] at hl
      rw [cleanFrom_cons]
      split
      · rename_i hc
        obtain ⟨rfl, _, _⟩ := hc
        rw [ih cs _ hl h.tail, elements_other _ (by decide)]
      · cases hu : isUpperAscii c with
        | false => rw [elements_other _ hu, elements_other _ hu, ih cs _ hl h.tail]
        | true =>
          have hsuf := List.dropWhile_suffix isLowerAscii (l := cs)
          obtain ⟨q, e⟩ := clean_low (some c) cs
          obtain ⟨e1, e2⟩ := take_low (cs.takeWhile isLowerAscii) (cleanFrom q (cs.dropWhile isLowerAscii)) (fun c hc => mem_takeWhile hc)
            (low_clean _ q (h.tail.drop hsuf) (low_drop cs))
          rw [elements_upper _ hu, elements_upper _ hu, e, e1, e2, ih _ _ (by have := hsuf.length_le; omega) (h.tail.drop hsuf)]

/-- C70: a formula has the same elements when cleaned, if no lower case letter follows a 1. -/
theorem C70_elements_partial (s : List Char) (h : Apart s) : elements (clean s) = elements s := elements_clean s.length s none (Nat.le_refl _) h

/-- C70: otherwise the elements may be others: `C1o1` is a carbon compound; cleaned it is cobalt. -/
theorem C70_elements_counterexample : ∃ s : List Char, s = "C1o1".toList ∧ clean s = "Co".toList ∧ elements s = [['C']] ∧ elements (clean s) = [['C', 'o']] :=
  ⟨_, rfl, by decide +kernel, by decide +kernel, by decide +kernel⟩

/-! ## Examples -/

/-- ASCII digits -/
def ascii (c : Char) : Bool := '0' ≤ c && c ≤ '9'

theorem ascii_digits : Digits ascii := by
  refine ⟨?_, by decide⟩
  intro c h
  simp only [letter, isUpperAscii, isLowerAscii, ascii, Bool.or_eq_true, Bool.and_eq_true, decide_eq_true_eq, Bool.and_eq_false_iff, decide_eq_false_iff_not] at h ⊢
  right
  intro h2
  have h9 : c.val ≤ 57 := h2
  rcases h with ⟨h, _⟩ | ⟨h, _⟩
  · have : (65 : UInt32) ≤ c.val := h
    exact absurd (UInt32.le_trans this h9) (by decide)
  · have : (97 : UInt32) ≤ c.val := h
    exact absurd (UInt32.le_trans this h9) (by decide)

/-- `Ga1As0.5Sb11` -/
def gallium : List Term := [⟨['G', 'a'], ['1']⟩, ⟨['A', 's'], ['0', '.', '5']⟩, ⟨['S', 'b'], ['1', '1']⟩]

example : Formula ascii gallium ∧ Apart (text gallium) ∧ clean (text gallium) = "GaAs0.5Sb11".toList ∧ latex ascii (text gallium) = "GaAs$_{0.5}$Sb$_{11}$".toList ∧
    elements (text gallium) = ["Ga".toList, "As".toList, "Sb".toList] := by
  refine ⟨?_, ?_, by decide +kernel, ?_, by decide +kernel⟩
  · unfold Formula
    decide +kernel
  · have h : ∀ i ∈ List.range 12, ∀ c ∈ (text gallium)[i + 1]?, (text gallium)[i]? = some '1' → isLowerAscii c = false := by decide +kernel
    intro a b c e
    have hlen := congrArg List.length e
    have : (text gallium).length = 12 := by decide +kernel
    simp only [List.length_append, List.length_cons] at hlen
    refine h a.length (List.mem_range.2 (by omega)) c ?_ ?_
    · rw [e]; simp
    · rw [e]; simp
  · rw [C70_latex ascii_digits gallium (by unfold Formula; decide +kernel)]
    decide +kernel

/-- amounts next to brackets are not marked -/
example : latex ascii "Al2(SO4)3".toList = "Al2(SO4)3".toList := by
  have : clean "Al2(SO4)3".toList = ['A', 'l', '2', '(', 'S', 'O', '4', ')', '3'] := by decide +kernel
  rw [latex, this]
  repeat rw [latexFrom_cons]
  rw [latexFrom]
  decide +kernel

end Verif.Markup
