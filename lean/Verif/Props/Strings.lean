import Verif.Model.Strings
/-!
# C17 (enumerations), C18 (InChI), C19 (empirical formulas)
-/

set_option linter.unusedSectionVars false

namespace Verif.Strings
open Verif.Py

/-! ## C18: InChI -/

theorem replaceAll_nil (pat rep : List Char) : replaceAll pat rep [] = [] := by
  rw [replaceAll]

theorem replaceAll_prefix (pat rep rest : List Char) (h : pat ≠ []) :
    replaceAll pat rep (pat ++ rest) = rep ++ replaceAll pat rep rest := by
  cases hp : pat with
  | nil => exact absurd hp h
  | cons c cs =>
    rw [List.cons_append, replaceAll]
    have : (c :: cs).isPrefixOf (c :: (cs ++ rest)) = true := by
      rw [List.isPrefixOf_iff_prefix, ← List.cons_append]; exact List.prefix_append _ _
    rw [if_pos ⟨by simp, this⟩]
    congr 2
    rw [← List.cons_append, List.drop_left]

theorem replaceAll_of_not_infix (pat rep s : List Char) (h : ¬ pat <:+: s) : replaceAll pat rep s = s := by
  induction s with
  | nil => exact replaceAll_nil _ _
  | cons c cs ih =>
    rw [replaceAll]
    have h1 : ¬ pat.isPrefixOf (c :: cs) = true := by
      rw [List.isPrefixOf_iff_prefix]; exact fun hp => h hp.isInfix
    rw [if_neg (fun h' => h1 h'.2), ih (fun hi => h (List.infix_cons hi))]

/-- everything after the first `n` characters, and the first `n` -/
theorem take_append_drop' (n : Nat) (s : List Char) : s = s.take n ++ s.drop n := (List.take_append_drop n s).symm

/-- stored text after a successful assignment of a string -/
def stored (v : List Char) : List Char := ((setInchi none (.str v)).1).getD []

theorem setInchi_str (st : Option (List Char)) (v : List Char) :
    setInchi st (.str v) = (some (stored v), .ok ()) := rfl

/-- Which ASCII letter a character counts as when case is ignored: the capital I with a dot above counts as `i`. -/
def folded (c : Char) : Char := if c = '\u0130' then 'i' else c.toLower

theorem lsw_folded {p : List Char} (hp : '\u0307' ∉ p) : ∀ {v : List Char}, lowerStartsWith p v = true →
    p.length ≤ v.length ∧ (v.take p.length).map folded = p := by
  induction p with
  | nil => intro v _; simp
  | cons c p ih =>
    have hp' : '\u0307' ∉ p := fun h => hp (List.mem_cons_of_mem _ h)
    intro v h
    cases v with
    | nil => simp [lowerStartsWith] at h
    | cons a v =>
      by_cases ha : a = '\u0130'
      · subst ha
        simp only [lowerStartsWith, List.flatMap_cons, lowerChar, if_true, List.cons_append, List.nil_append, List.isPrefixOf_cons_cons, Bool.and_eq_true,
          beq_iff_eq] at h
        obtain ⟨rfl, h⟩ := h
        cases p with
        | nil => simp [folded]
        | cons d p =>
          simp only [List.isPrefixOf_cons_cons, Bool.and_eq_true, beq_iff_eq] at h
          exact absurd (h.1 ▸ List.mem_cons_self) hp'
      · simp only [lowerStartsWith, List.flatMap_cons, lowerChar, if_neg ha, List.cons_append, List.nil_append, List.isPrefixOf_cons_cons, Bool.and_eq_true,
          beq_iff_eq] at h
        obtain ⟨rfl, h⟩ := h
        obtain ⟨h1, h2⟩ := ih hp' (v := v) h
        exact ⟨by simpa using h1, by simp [folded, ha, h2]⟩

theorem lsw_length {p v : List Char} (hp : '\u0307' ∉ p) (h : lowerStartsWith p v = true) : p.length ≤ v.length := (lsw_folded hp h).1

/-- the five cases of the setter, in closed form as far as the prefix goes -/
theorem stored_cases (v : List Char) :
    (lowerStartsWith ['1', 's', '/'] v = true ∧
      stored v = ['I', 'n', 'C', 'h', 'I', '=', '1', 'S'] ++ replaceAll (v.take 2) ['I', 'n', 'C', 'h', 'I', '=', '1', 'S'] (v.drop 2)) ∨
    (lowerStartsWith ['1', 's', '/'] v = false ∧ lowerStartsWith ['i', 'n', 'c', 'h', 'i'] v = false ∧
      stored v = ['I', 'n', 'C', 'h', 'I', '=', '1', 'S', '/'] ++ v) ∨
    (lowerStartsWith ['1', 's', '/'] v = false ∧ lowerStartsWith ['i', 'n', 'c', 'h', 'i'] v = true ∧
      ['I', 'n', 'C', 'h', 'I'].isPrefixOf v = false ∧
      stored v = ['I', 'n', 'C', 'h', 'I'] ++ replaceAll (v.take 5) ['I', 'n', 'C', 'h', 'I'] (v.drop 5)) ∨
    (lowerStartsWith ['1', 's', '/'] v = false ∧ ['I', 'n', 'C', 'h', 'I'].isPrefixOf v = true ∧ stored v = v) := by
  by_cases h1 : lowerStartsWith ['1', 's', '/'] v = true
  · left
    refine ⟨h1, ?_⟩
    have hl := lsw_length (by decide) h1
    have hl' : 3 ≤ v.length := hl
    have hne : v.take 2 ≠ [] := by
      intro e; have := congrArg List.length e; rw [List.length_take] at this; simp at this; grind
    have : stored v = replaceAll (v.take 2) ['I', 'n', 'C', 'h', 'I', '=', '1', 'S'] v := by
      simp only [stored, setInchi, h1, if_true, Option.getD]
    rw [this]
    conv => lhs; rw [take_append_drop' 2 v]
    have : List.take 2 (List.take 2 v ++ List.drop 2 v) = List.take 2 v := by rw [List.take_append_drop]
    rw [this, replaceAll_prefix _ _ _ hne]
  · right
    have h1' : lowerStartsWith ['1', 's', '/'] v = false := by simpa using h1
    by_cases h2 : lowerStartsWith ['i', 'n', 'c', 'h', 'i'] v = true
    · right
      by_cases h3 : ['I', 'n', 'C', 'h', 'I'].isPrefixOf v = true
      · right
        refine ⟨h1', h3, ?_⟩
        simp only [stored, setInchi, h1', h2, h3, Bool.not_true, Bool.false_eq_true, if_false, Option.getD]
      · left
        have h3' : ['I', 'n', 'C', 'h', 'I'].isPrefixOf v = false := Bool.eq_false_iff.2 h3
        refine ⟨h1', h2, h3', ?_⟩
        have hl' : 5 ≤ v.length := lsw_length (by decide) h2
        have hne : v.take 5 ≠ [] := by
          intro e; have := congrArg List.length e; rw [List.length_take] at this; simp at this; grind
        have : stored v = replaceAll (v.take 5) ['I', 'n', 'C', 'h', 'I'] v := by
          simp only [stored, setInchi, h1', h2, h3', Bool.not_true, Bool.not_false, Bool.false_eq_true, if_false,
            if_true, Option.getD]
        rw [this]
        conv => lhs; rw [take_append_drop' 5 v]
        have : List.take 5 (List.take 5 v ++ List.drop 5 v) = List.take 5 v := by rw [List.take_append_drop]
        rw [this, replaceAll_prefix _ _ _ hne]
    · left
      have h2' : lowerStartsWith ['i', 'n', 'c', 'h', 'i'] v = false := by simpa using h2
      refine ⟨h1', h2', ?_⟩
      simp only [stored, setInchi, h1', h2', Bool.not_false, Bool.false_eq_true, if_false, if_true, Option.getD]

theorem inchi_fixed (rest : List Char) : stored (['I', 'n', 'C', 'h', 'I'] ++ rest) = ['I', 'n', 'C', 'h', 'I'] ++ rest := by
  have h1 : lowerStartsWith ['1', 's', '/'] (['I', 'n', 'C', 'h', 'I'] ++ rest) = false := by
    simp [lowerStartsWith, lowerChar, List.isPrefixOf]
  have h3 : ['I', 'n', 'C', 'h', 'I'].isPrefixOf (['I', 'n', 'C', 'h', 'I'] ++ rest) = true := by
    rw [List.isPrefixOf_iff_prefix]; exact List.prefix_append _ _
  rcases stored_cases (['I', 'n', 'C', 'h', 'I'] ++ rest) with ⟨h, _⟩ | ⟨_, h, _⟩ | ⟨_, _, h, _⟩ | ⟨_, _, h⟩
  · rw [h1] at h; cases h
  · exfalso
    have : lowerStartsWith ['i', 'n', 'c', 'h', 'i'] (['I', 'n', 'C', 'h', 'I'] ++ rest) = true := by
      unfold lowerStartsWith
      rw [List.isPrefixOf_iff_prefix, List.flatMap_append]
      have : ['I', 'n', 'C', 'h', 'I'].flatMap lowerChar = ['i', 'n', 'c', 'h', 'i'] := by decide
      rw [this]; exact List.prefix_append _ _
    rw [this] at h; cases h
  · rw [h3] at h; cases h
  · exact h

theorem stored_prefix (v : List Char) : ∃ rest, stored v = ['I', 'n', 'C', 'h', 'I'] ++ rest := by
  rcases stored_cases v with ⟨_, h⟩ | ⟨_, _, h⟩ | ⟨_, _, _, h⟩ | ⟨_, h', h⟩
  · exact ⟨['=', '1', 'S'] ++ _, h.trans (List.append_assoc ['I', 'n', 'C', 'h', 'I'] ['=', '1', 'S'] _)⟩
  · refine ⟨['=', '1', 'S', '/'] ++ v, h.trans ?_⟩
    rw [← List.append_assoc]; rfl
  · exact ⟨_, h⟩
  · rw [List.isPrefixOf_iff_prefix] at h'
    obtain ⟨t, ht⟩ := h'
    exact ⟨t, h.trans ht.symm⟩

/-- C18. Whatever string is assigned, the stored string begins with `InChI`, and assigning it again stores the same. -/
theorem C18_prefix_and_idempotent_partial (st : Option (List Char)) (v : List Char) :
    ∃ w, setInchi st (.str v) = (some w, .ok ()) ∧ ['I', 'n', 'C', 'h', 'I'] <+: w ∧
      ∀ st', setInchi st' (.str w) = (some w, .ok ()) := by
  obtain ⟨rest, h⟩ := stored_prefix v
  refine ⟨stored v, rfl, ⟨rest, h.symm⟩, ?_⟩
  intro st'
  rw [setInchi_str, h, inchi_fixed]

/-- C18. The body is kept: if the leading marker does not occur again in the string, the stored string is the standard
prefix followed by exactly what followed the marker. -/
theorem C18_body_partial (st : Option (List Char)) (v : List Char)
    (h2 : ¬ v.take 2 <:+: v.drop 2) (h5 : ¬ v.take 5 <:+: v.drop 5) :
    ∃ p n, setInchi st (.str v) = (some (p ++ v.drop n), .ok ()) ∧
      (p = ['I', 'n', 'C', 'h', 'I', '=', '1', 'S'] ∧ n = 2 ∧ (v.take 3).map folded = ['1', 's', '/'] ∨
       p = ['I', 'n', 'C', 'h', 'I', '=', '1', 'S', '/'] ∧ n = 0 ∨
       p = ['I', 'n', 'C', 'h', 'I'] ∧ n = 5 ∧ (v.take 5).map folded = ['i', 'n', 'c', 'h', 'i']) := by
  rcases stored_cases v with ⟨h, e⟩ | ⟨_, _, e⟩ | ⟨_, h, _, e⟩ | ⟨_, h, e⟩
  · refine ⟨['I', 'n', 'C', 'h', 'I', '=', '1', 'S'], 2, ?_, .inl ⟨rfl, rfl, (lsw_folded (by decide) h).2⟩⟩
    rw [setInchi_str, e, replaceAll_of_not_infix _ _ _ h2]
  · exact ⟨['I', 'n', 'C', 'h', 'I', '=', '1', 'S', '/'], 0, by rw [setInchi_str, e]; rfl, .inr (.inl ⟨rfl, rfl⟩)⟩
  · refine ⟨['I', 'n', 'C', 'h', 'I'], 5, ?_, .inr (.inr ⟨rfl, rfl, (lsw_folded (by decide) h).2⟩)⟩
    rw [setInchi_str, e, replaceAll_of_not_infix _ _ _ h5]
  · refine ⟨['I', 'n', 'C', 'h', 'I'], 5, ?_, .inr (.inr ⟨rfl, rfl, ?_⟩)⟩
    · rw [setInchi_str, e]
      rw [List.isPrefixOf_iff_prefix] at h
      obtain ⟨t, rfl⟩ := h
      congr 2
    · rw [List.isPrefixOf_iff_prefix] at h
      obtain ⟨t, rfl⟩ := h
      rw [List.take_left' (by rfl)]
      decide

/-- C18. None clears, non-strings are refused and change nothing. -/
theorem C18_other (st : Option (List Char)) :
    setInchi st .none = (none, .ok ()) ∧ setInchi st .other = (st, .error .typeError) := ⟨rfl, rfl⟩

/-- C18 read literally is false (1): a string starting with `InChI` but not with `InChI=` is stored as it is. -/
theorem C18_prefix_counterexample :
    setInchi none (.str ['I', 'n', 'C', 'h', 'I', '1', 'S', '/', 'C', 'H', '4']) = (some ['I', 'n', 'C', 'h', 'I', '1', 'S', '/', 'C', 'H', '4'], .ok ()) ∧
      ¬ ['I', 'n', 'C', 'h', 'I', '='] <+: ['I', 'n', 'C', 'h', 'I', '1', 'S', '/', 'C', 'H', '4'] := by
  constructor
  · have := inchi_fixed ['1', 'S', '/', 'C', 'H', '4']
    have e : ['I', 'n', 'C', 'h', 'I', '1', 'S', '/', 'C', 'H', '4'] = ['I', 'n', 'C', 'h', 'I'] ++ ['1', 'S', '/', 'C', 'H', '4'] := by decide
    rw [setInchi_str, e, this]
  · decide

/-- C18 read literally is false (2): every further occurrence of the marker inside the string is rewritten too. -/
theorem C18_body_counterexample :
    setInchi none (.str ['1', 'S', '/', 'x', '1', 'S']) = (some ['I', 'n', 'C', 'h', 'I', '=', '1', 'S', '/', 'x', 'I', 'n', 'C', 'h', 'I', '=', '1', 'S'], .ok ()) := by
  rcases stored_cases ['1', 'S', '/', 'x', '1', 'S'] with ⟨_, e⟩ | ⟨h, _⟩ | ⟨h, _⟩ | ⟨h, _⟩
  · rw [setInchi_str, e]
    simp [replaceAll]
  all_goals exact absurd h (by decide)

/-! ## C19: empirical formulas -/

/-- `tok` is a capitalised token of `s`: a capital letter with all the lower-case letters following it -/
def IsToken (s tok : List Char) : Prop :=
  ∃ pre u ls post, s = pre ++ (u :: ls) ++ post ∧ tok = u :: ls ∧ isUpperAscii u = true ∧
    (∀ c ∈ ls, isLowerAscii c = true) ∧ (∀ c, post.head? = some c → isLowerAscii c = false)

theorem upper_not_lower (c : Char) (h : isUpperAscii c = true) : isLowerAscii c = false := by
  unfold isUpperAscii at h
  unfold isLowerAscii
  simp only [Bool.and_eq_true, decide_eq_true_eq] at h
  simp only [Bool.and_eq_false_iff, decide_eq_false_iff_not]
  left
  intro h'
  have h2 := h.2
  have := Char.le_trans h' h2
  revert this; decide

theorem dropWhile_head (p : Char → Bool) (l : List Char) (c : Char) (h : (l.dropWhile p).head? = some c) : p c = false := by
  induction l with
  | nil => cases h
  | cons a l ih =>
    by_cases hp : p a = true
    · rw [List.dropWhile_cons_of_pos hp] at h; exact ih h
    · rw [List.dropWhile_cons_of_neg hp] at h
      injection h with h; subst h; simpa using hp

theorem takeWhile_eq_of (p : Char → Bool) (ls post : List Char) (h1 : ∀ c ∈ ls, p c = true)
    (h2 : ∀ c, post.head? = some c → p c = false) :
    (ls ++ post).takeWhile p = ls ∧ (ls ++ post).dropWhile p = post := by
  induction ls with
  | nil =>
    cases post with
    | nil => exact ⟨rfl, rfl⟩
    | cons c cs =>
      have := h2 c rfl
      simp [this]
  | cons a ls ih =>
    have ha := h1 a List.mem_cons_self
    obtain ⟨i1, i2⟩ := ih (fun c hc => h1 c (List.mem_cons_of_mem _ hc))
    simp [ha, i1, i2]

theorem elements_lower (ls rest : List Char) (h : ∀ c ∈ ls, isLowerAscii c = true) :
    elements (ls ++ rest) = elements rest := by
  induction ls with
  | nil => rfl
  | cons a ls ih =>
    rw [List.cons_append, elements]
    have ha := h a List.mem_cons_self
    have : isUpperAscii a = false := by
      cases hu : isUpperAscii a with
      | false => rfl
      | true => rw [upper_not_lower a hu] at ha; cases ha
    rw [this]
    simp only [Bool.false_eq_true, if_false]
    exact ih (fun c hc => h c (List.mem_cons_of_mem _ hc))

/-- the tokeniser finds exactly the capitalised tokens -/
theorem mem_elements (s tok : List Char) : tok ∈ elements s ↔ IsToken s tok := by
  constructor
  · intro h
    induction hn : s.length using Nat.strongRecOn generalizing s with
    | ind n ih =>
      cases s with
      | nil => rw [elements] at h; cases h
      | cons c cs =>
        rw [elements] at h
        by_cases hu : isUpperAscii c = true
        · rw [if_pos hu] at h
          rcases List.mem_cons.1 h with h | h
          · refine ⟨[], c, cs.takeWhile isLowerAscii, cs.dropWhile isLowerAscii, ?_, h, hu, ?_, ?_⟩
            · simp
            · intro x hx; exact List.all_eq_true.1 List.all_takeWhile x hx
            · exact dropWhile_head _ _
          · have hlen : (cs.dropWhile isLowerAscii).length < n := by
              have := (List.dropWhile_suffix isLowerAscii (l := cs)).length_le
              simp at hn; omega
            obtain ⟨pre, u, ls, post, h1, h2⟩ := ih _ hlen _ h rfl
            refine ⟨c :: cs.takeWhile isLowerAscii ++ pre, u, ls, post, ?_, h2⟩
            have : cs = cs.takeWhile isLowerAscii ++ cs.dropWhile isLowerAscii := List.takeWhile_append_dropWhile.symm
            conv => lhs; rw [this, h1]
            simp
        · rw [if_neg hu] at h
          obtain ⟨pre, u, ls, post, h1, h2⟩ := ih cs.length (by simp at hn; omega) cs h rfl
          exact ⟨c :: pre, u, ls, post, by rw [h1]; simp, h2⟩
  · rintro ⟨pre, u, ls, post, rfl, rfl, hu, hls, hpost⟩
    have base : elements (u :: ls ++ post) = (u :: ls) :: elements post := by
      rw [List.cons_append, elements, if_pos hu]
      obtain ⟨h1, h2⟩ := takeWhile_eq_of isLowerAscii ls post hls hpost
      rw [h1, h2]
    -- skipping the part before the token
    induction hn : pre.length using Nat.strongRecOn generalizing pre with
    | ind n ih =>
      cases pre with
      | nil => rw [List.nil_append, base]; exact List.mem_cons_self
      | cons c cs =>
        rw [List.cons_append, List.cons_append, elements]
        by_cases hc : isUpperAscii c = true
        · rw [if_pos hc]
          apply List.mem_cons_of_mem
          -- the lower-case run after `c` ends at the latest before `u`
          have e : (cs ++ (u :: ls) ++ post).dropWhile isLowerAscii
              = cs.dropWhile isLowerAscii ++ (u :: ls) ++ post := by
            have hnl := upper_not_lower u hu
            clear ih hn base
            induction cs with
            | nil => simp [hnl]
            | cons a cs ih' =>
              by_cases ha : isLowerAscii a = true
              · simp only [List.cons_append, List.dropWhile_cons_of_pos ha] at ih' ⊢; exact ih'
              · simp only [List.cons_append, List.dropWhile_cons_of_neg ha]
          rw [e]
          refine ih _ ?_ _ rfl
          have := (List.dropWhile_suffix isLowerAscii (l := cs)).length_le
          simp at hn; omega
        · rw [if_neg hc]
          exact ih cs.length (by simp at hn; omega) cs rfl

/-- C19. A formula string is accepted exactly when every capitalised token is in the table; then it is stored unchanged,
otherwise nothing changes. -/
theorem C19_accept_iff (table : List (List Char)) (st : Option (List Char)) (v : List Char) :
    ((∀ tok, IsToken v tok → tok ∈ table) → setFormula table st (.str v) = (some v, .ok ())) ∧
    (¬ (∀ tok, IsToken v tok → tok ∈ table) → setFormula table st (.str v) = (st, .error .valueError)) ∧
    setFormula table st .none = (none, .ok ()) ∧ setFormula table st .other = (st, .error .typeError) := by
  have key : (elements v).all (fun e => decide (e ∈ table)) = true ↔ ∀ tok, IsToken v tok → tok ∈ table := by
    simp only [List.all_eq_true, decide_eq_true_eq, mem_elements]
  refine ⟨?_, ?_, rfl, rfl⟩
  · intro h
    simp only [setFormula]
    rw [if_pos (key.2 h)]
  · intro h
    simp only [setFormula]
    rw [if_neg (fun h' => h (key.1 h'))]

/-- C19. The derived bounds list exactly the elements of the formula, all of them in the table, through any history of
assignments. -/
theorem C19_bounds (table : List (List Char)) (args : List StrArg) (f : List Char)
    (h : args.foldl (fun st a => (setFormula table st a).1) none = some f) :
    ∃ comps, formulaComponents (some f) = .ok comps ∧ (∀ tok, tok ∈ comps ↔ IsToken f tok) ∧
      ∀ tok ∈ comps, tok ∈ table := by
  refine ⟨elements f, rfl, mem_elements f, ?_⟩
  suffices ∀ st, (∀ f, st = some f → ∀ tok ∈ elements f, tok ∈ table) →
      ∀ f, args.foldl (fun st a => (setFormula table st a).1) st = some f → ∀ tok ∈ elements f, tok ∈ table from
    this none (by intro f h; cases h) f h
  clear h
  induction args with
  | nil => exact fun st h f hf => h f hf
  | cons a args ih =>
    intro st hst
    apply ih
    intro f hf
    cases a with
    | none => cases hf
    | other => exact hst f hf
    | str v =>
      simp only [setFormula] at hf
      split at hf
      · rename_i hall
        injection hf with hf; subst hf
        intro tok ht
        simpa using List.all_eq_true.1 hall tok ht
      · exact hst f hf

/-- C19. A missing formula has no bounds (TypeError); the empty one has empty bounds. -/
theorem C19_missing : formulaComponents none = .error .typeError ∧ formulaComponents (some []) = .ok [] := by
  refine ⟨rfl, ?_⟩
  simp [formulaComponents, elements]

/-! ## C17: enumerations -/

section enumeration
variable {Str : Type} [DecidableEq Str]

/-- the text of a string, ignoring case and surrounding whitespace -/
def textOf (o : StrOps Str) (s : Str) : Str := o.strip (o.lower s)

theorem textOf_eq (o : StrOps Str) (s : Str) : textOf o s = o.norm s := rfl

/-- lookup returns a member that has the normalised string, and the first such; None exactly when there is none -/
theorem findMember_spec (o : StrOps Str) (cls : List (Member Str)) (v : Str) :
    (∀ m, findMember o cls v = some m →
      ∃ before after, cls = before ++ m :: after ∧ o.norm v ∈ m.matchSet ∧ ∀ x ∈ before, o.norm v ∉ x.matchSet) ∧
    (findMember o cls v = none ↔ ∀ x ∈ cls, o.norm v ∉ x.matchSet) := by
  constructor
  · intro m h
    unfold findMember at h
    rw [List.find?_eq_some_iff_append] at h
    obtain ⟨h1, before, after, h2, h3⟩ := h
    exact ⟨before, after, h2, by simpa using h1, by simpa using h3⟩
  · unfold findMember
    rw [List.find?_eq_none]
    simp

/-- what creation guarantees: no later value is matched by an earlier member, and match sets are as declared -/
def Created (o : StrOps Str) (cls : List (Member Str)) : Prop :=
  cls.Pairwise (fun x y => o.norm y.value ∉ x.matchSet) ∧
  ∀ m ∈ cls, m.matchSet = o.lower m.value :: m.synonyms.map o.lower

theorem mkEnum_created (o : StrOps Str) (decls : List (Str × List Str)) :
    ∀ cls cls', Created o cls → mkEnum o cls decls = .ok cls' →
      Created o cls' ∧ cls'.map (fun m => (m.value, m.synonyms)) = cls.map (fun m => (m.value, m.synonyms)) ++ decls := by
  induction decls with
  | nil => intro cls cls' h e; injection e with e; subst e; exact ⟨h, by simp⟩
  | cons d rest ih =>
    intro cls cls' h e
    obtain ⟨v, syn⟩ := d
    simp only [mkEnum, newMember, fromStr, Bool.false_and, Bool.false_eq_true, if_false] at e
    cases hf : findMember o cls v with
    | some m => rw [hf] at e; cases e
    | none =>
      rw [hf] at e
      simp only at e
      have hno := (findMember_spec o cls v).2.1 hf
      have hcr : Created o (cls ++ [{ value := v, synonyms := syn, matchSet := o.lower v :: syn.map o.lower }]) := by
        constructor
        · rw [List.pairwise_append]
          refine ⟨h.1, by simp, ?_⟩
          intro x hx y hy
          simp at hy; subst hy
          exact hno x hx
        · intro m hm
          rcases List.mem_append.1 hm with hm | hm
          · exact h.2 m hm
          · simp at hm; subst hm; rfl
      obtain ⟨h1, h2⟩ := ih _ cls' hcr e
      exact ⟨h1, by rw [h2]; simp⟩

/-- C17. For every enumeration class that can be created, and every string: lookup returns the first member having the
string (lower-cased and stripped) among its lower-cased value and synonyms; None (or ValueError on request) exactly when no
member has it; None gives None (or ValueError). -/
theorem C17_lookup (o : StrOps Str) (decls : List (Str × List Str)) (cls : List (Member Str))
    (h : mkEnum o [] decls = .ok cls) (v : Str) (exc : Bool) :
    cls.map (fun m => (m.value, m.synonyms)) = decls ∧
    ((∃ m ∈ cls, fromStr o cls (some v) exc = .ok (some m) ∧
        (textOf o v = o.lower m.value ∨ ∃ s ∈ m.synonyms, textOf o v = o.lower s)) ∨
     ((∀ d ∈ decls, textOf o v ≠ o.lower d.1 ∧ ∀ s ∈ d.2, textOf o v ≠ o.lower s) ∧
        fromStr o cls (some v) exc = if exc then .error .valueError else .ok none)) ∧
    fromStr o cls none exc = (if exc then .error .valueError else .ok none) := by
  simp only [textOf_eq] at *
  obtain ⟨⟨hc1, hc2⟩, hd⟩ := mkEnum_created o decls [] cls ⟨by simp, by simp⟩ h
  have hd' : cls.map (fun m => (m.value, m.synonyms)) = decls := by simpa using hd
  refine ⟨hd', ?_, by cases exc <;> rfl⟩
  cases hf : findMember o cls v with
  | some m =>
    left
    obtain ⟨b, a, e, hm, _⟩ := (findMember_spec o cls v).1 m hf
    have hmem : m ∈ cls := by rw [e]; simp
    refine ⟨m, hmem, ?_, ?_⟩
    · simp [fromStr, hf]
    · rw [hc2 m hmem] at hm
      rcases List.mem_cons.1 hm with hm | hm
      · exact .inl hm
      · obtain ⟨s, hs, e⟩ := List.mem_map.1 hm
        exact .inr ⟨s, hs, e.symm⟩
  | none =>
    right
    have hno := (findMember_spec o cls v).2.1 hf
    refine ⟨?_, by simp [fromStr, hf]⟩
    intro d hdm
    rw [← hd'] at hdm
    obtain ⟨m, hm, rfl⟩ := List.mem_map.1 hdm
    have := hno m hm
    rw [hc2 m hm] at this
    simp only [List.mem_cons, List.mem_map, not_or, not_exists, not_and] at this
    exact ⟨this.1, fun s hs e => this.2 s hs e.symm⟩

/-- C17. Every member whose value has no surrounding whitespace is found by its own value, in any casing. -/
theorem C17_own_value_partial (o : StrOps Str) (decls : List (Str × List Str)) (cls : List (Member Str))
    (h : mkEnum o [] decls = .ok cls) (m : Member Str) (hm : m ∈ cls)
    (htrim : textOf o m.value = o.lower m.value) (v : Str) (hv : textOf o v = textOf o m.value) (exc : Bool) :
    fromStr o cls (some v) exc = .ok (some m) := by
  simp only [textOf_eq] at *
  obtain ⟨⟨hc1, hc2⟩, hd⟩ := mkEnum_created o decls [] cls ⟨by simp, by simp⟩ h
  obtain ⟨b, a, e⟩ := List.append_of_mem hm
  have hb : ∀ x ∈ b, o.norm m.value ∉ x.matchSet := by
    rw [e, List.pairwise_append] at hc1
    intro x hx
    exact hc1.2.2 x hx m (by simp)
  have : findMember o cls v = some m := by
    unfold findMember
    rw [List.find?_eq_some_iff_append]
    refine ⟨?_, b, a, e, ?_⟩
    · simp only [decide_eq_true_eq, hv, htrim, hc2 m hm]; exact List.mem_cons_self
    · intro x hx
      have := hb x hx
      simpa [hv] using this
  simp [fromStr, this]

/-- C17. A synonym finds its member when no member declared earlier has the same string. -/
theorem C17_synonym_partial (o : StrOps Str) (decls : List (Str × List Str)) (cls b a : List (Member Str))
    (h : mkEnum o [] decls = .ok cls) (m : Member Str) (e : cls = b ++ m :: a) (s : Str) (hs : s ∈ m.synonyms)
    (htrim : textOf o s = o.lower s) (hfirst : ∀ x ∈ b, textOf o s ∉ x.matchSet)
    (v : Str) (hv : textOf o v = textOf o s) (exc : Bool) :
    fromStr o cls (some v) exc = .ok (some m) := by
  simp only [textOf_eq] at *
  obtain ⟨⟨hc1, hc2⟩, hd⟩ := mkEnum_created o decls [] cls ⟨by simp, by simp⟩ h
  have hm : m ∈ cls := by rw [e]; simp
  have : findMember o cls v = some m := by
    unfold findMember
    rw [List.find?_eq_some_iff_append]
    refine ⟨?_, b, a, e, ?_⟩
    · simp only [decide_eq_true_eq, hv, htrim, hc2 m hm]
      exact List.mem_cons_of_mem _ (List.mem_map_of_mem hs)
    · intro x hx
      have := hfirst x hx
      simpa [hv] using this
  simp [fromStr, this]

/-- C17. `Class(value)` returns a member with exactly that value when there is one, and otherwise agrees with
`from_str(value, exception=True)`. -/
theorem C17_call (o : StrOps Str) (cls : List (Member Str)) (v : Str) :
    (∀ m ∈ cls, m.value = v → ∃ m' ∈ cls, callEnum o cls v = .ok m' ∧ m'.value = v) ∧
    ((∀ m ∈ cls, m.value ≠ v) → ∀ m, callEnum o cls v = .ok m ↔ fromStr o cls (some v) true = .ok (some m)) := by
  constructor
  · intro m hm e
    cases hf : cls.find? (fun x => decide (x.value = v)) with
    | none =>
      rw [List.find?_eq_none] at hf
      exact absurd e (by simpa using hf m hm)
    | some m' =>
      have h1 := List.mem_of_find?_eq_some hf
      have h2 := List.find?_some hf
      exact ⟨m', h1, by simp [callEnum, hf], by simpa using h2⟩
  · intro hne m
    have hf : cls.find? (fun x => decide (x.value = v)) = none := by
      rw [List.find?_eq_none]; intro x hx; simpa using hne x hx
    unfold callEnum fromStr
    rw [hf]
    simp only
    cases hm : findMember o cls v <;> simp

end enumeration

/-- ASCII string operations on lists of characters, for examples -/
def asciiOps : StrOps (List Char) :=
  StrOps.mk (fun s => s.map Char.toLower)
    (fun s => ((s.dropWhile Char.isWhitespace).reverse.dropWhile Char.isWhitespace).reverse)

/-- C17 read literally is false: creation checks a new member's value but not its synonyms, so a synonym may belong to
two members and the later member is not found by it. -/
theorem C17_synonym_counterexample :
    ∃ cls m, mkEnum asciiOps [] [(['a'], []), (['b'], [['A']])] = .ok cls ∧ m ∈ cls ∧ ['A'] ∈ m.synonyms ∧
      ∃ m', fromStr asciiOps cls (some ['A']) false = .ok (some m') ∧ m' ≠ m :=
  ⟨[⟨['a'], [], [['a']]⟩, ⟨['b'], [['A']], [['b'], ['a']]⟩], ⟨['b'], [['A']], [['b'], ['a']]⟩, by decide +kernel, by decide +kernel,
    by decide +kernel, ⟨['a'], [], [['a']]⟩, by decide +kernel, by decide +kernel⟩

/-- C17 read literally is false: a value declared with surrounding whitespace is never found. -/
theorem C17_whitespace_counterexample :
    ∃ cls m, mkEnum asciiOps [] [([' ', 'a'], [])] = .ok cls ∧ m ∈ cls ∧ m.value = [' ', 'a'] ∧
      fromStr asciiOps cls (some [' ', 'a']) false = .ok none :=
  ⟨[⟨[' ', 'a'], [], [[' ', 'a']]⟩], ⟨[' ', 'a'], [], [[' ', 'a']]⟩, by decide +kernel, by decide +kernel, by decide +kernel, by decide +kernel⟩

/-! ## Non-vacuity -/

/-- the shipped enumerations can be created (origin.py, sample_type.py) -/
example : (mkEnum asciiOps []
    (["measured", "predicted", "summary", "specified", "computed", "unknown"].map (fun s => (s.toList, [])))).isOk
    = true := by decide +kernel
example : (mkEnum asciiOps []
    (["experimental", "production", "virtual", "unknown"].map (fun s => (s.toList, [])))).isOk = true := by decide +kernel
example : ∃ cls, mkEnum asciiOps [] [(['X'], []), (['Y'], [['Z', ' ', 'W']])] = .ok cls ∧
    fromStr asciiOps cls (some [' ', 'z', ' ', 'W', ' ']) true
      = .ok (some ⟨['Y'], [['Z', ' ', 'W']], [['y'], ['z', ' ', 'w']]⟩) :=
  ⟨[⟨['X'], [], [['x']]⟩, ⟨['Y'], [['Z', ' ', 'W']], [['y'], ['z', ' ', 'w']]⟩], by decide +kernel, by decide +kernel⟩
/-- an accepted and a rejected formula -/
example : (setFormula (allElements.map String.toList) none (.str ['A', 'l', '2', 'O', '3'])).1 = some ['A', 'l', '2', 'O', '3'] := by
  rw [(C19_accept_iff _ _ _).1]
  intro tok h
  rw [← mem_elements] at h
  have : elements ['A', 'l', '2', 'O', '3'] = [['A', 'l'], ['O']] := by
    simp [elements, isUpperAscii, isLowerAscii, List.takeWhile, List.dropWhile]
  rw [this] at h
  revert tok; decide +kernel
example : IsToken ['A', 'l', '2', 'O', '3'] ['A', 'l'] := ⟨[], 'A', ['l'], ['2', 'O', '3'], by decide +kernel, by decide +kernel, by decide +kernel, by decide +kernel, by
  intro c h; simp at h; subst h; decide⟩
/-- the hypotheses of `C18_body_partial` for `inchi=1S/CH4` -/
example : ¬ (['i', 'n'] <:+: "chi=1S/CH4".toList) ∧ ¬ (['i', 'n', 'c', 'h', 'i'] <:+: "=1S/CH4".toList) := by
  constructor <;> decide +kernel

end Verif.Strings
