import Verif.Props.JsonText
/-!
# Every text is read to an end, and no text that was cut off is read

Continues `Verif.Props.JsonText` with what holds for all texts.
-/

namespace Verif.JsonText
open Verif.Py Verif.Value Verif.Schema Verif.Json

/-! ## Reading gets on -/

theorem length_skip (r : List Char) : (skip r).length ≤ r.length := (List.dropWhile_sublist _).length_le

theorem hex4_length {r r' : List Char} {n : Nat} (h : hex4 r = some (n, r')) : r.length = r'.length + 4 := by
  unfold hex4 at h
  split at h
  · split at h
    · cases h; simp
    · cases h
  · cases h

theorem secondHalf_length {n : Nat} {r r' : List Char} {c : Char} (h : secondHalf n r = .ok (c, r')) : r'.length < r.length := by
  unfold secondHalf at h
  split at h
  · split at h
    · cases h
    · rename_i hh
      split at h
      · simp only [Except.ok.injEq, Prod.mk.injEq] at h
        obtain ⟨_, rfl⟩ := h
        have := hex4_length hh
        simp only [List.length_cons]; omega
      · cases h
  · cases h

theorem unit_length {cs r : List Char} {c : Char} (h : unit cs = .ok (c, r)) : r.length < cs.length := by
  unfold unit at h
  split at h
  all_goals first
    | (cases h; done)
    | (cases h; simp only [List.length_cons]; omega)
    | skip
  · split at h
    · cases h
    · rename_i hh
      have h4 := hex4_length hh
      split at h
      · have := secondHalf_length h
        simp only [List.length_cons]; omega
      · split at h
        · cases h
        · simp only [Except.ok.injEq, Prod.mk.injEq] at h
          obtain ⟨_, rfl⟩ := h
          simp only [List.length_cons]; omega
  · split at h
    · cases h
    · cases h; simp

theorem scanString_length {n : Nat} {cs s r : List Char} (h : scanString n cs = .ok (s, r)) : r.length < cs.length := by
  induction n generalizing cs s r with
  | zero => simp [scanString] at h
  | succ n ih =>
    by_cases hq : cs.head? = some '"'
    · obtain ⟨t, rfl⟩ : ∃ t, cs = '"' :: t := by cases cs <;> simp_all
      simp [scanString] at h
      obtain ⟨_, rfl⟩ := h
      simp
    · rw [scanString_step hq] at h
      split at h
      · cases h
      · rename_i hu
        split at h
        · cases h
        · rename_i hs
          cases h
          have := unit_length hu
          have := ih hs
          omega

theorem scanString_rounds {n : Nat} {cs : List Char} (hn : cs.length < n) : scanString n cs ≠ .error .rounds := by
  induction n generalizing cs with
  | zero => omega
  | succ n ih =>
    by_cases hq : cs.head? = some '"'
    · obtain ⟨t, rfl⟩ : ∃ t, cs = '"' :: t := by cases cs <;> simp_all
      simp [scanString]
    · rw [scanString_step hq]
      split
      · simp
      · rename_i c r hu
        have := unit_length hu
        have := ih (cs := r) (by omega)
        split
        · rename_i e he
          rw [he] at this
          intro hc
          cases hc
          exact this rfl
        · simp

theorem intPart_length {cs i r : List Char} (h : intPart cs = some (i, r)) : r.length < cs.length := by
  unfold intPart at h
  split at h
  · cases h
  · split at h
    · cases h; simp
    · split at h
      · cases h
        have := (List.dropWhile_sublist Char.isDigit (l := ‹List Char›)).length_le
        simp only [List.length_cons]; omega
      · cases h

theorem fraction_length (r : List Char) : (fraction r).2.length ≤ r.length := by
  unfold fraction
  split
  · split
    · simp
    · have := (List.dropWhile_sublist Char.isDigit (l := ‹List Char›)).length_le
      simp only [List.length_cons]; omega
  · simp

theorem sign_length (r : List Char) : (sign r).2.length ≤ r.length := by
  unfold sign
  split
  · split <;> simp
  · simp

theorem exponent_length (r : List Char) : (exponent r).2.length ≤ r.length := by
  unfold exponent
  split
  · split
    · split
      · simp
      · rename_i c r _ _
        have := (List.dropWhile_sublist Char.isDigit (l := (sign r).2)).length_le
        have := sign_length r
        simp only [List.length_cons]; omega
    · simp
  · simp

/-- the parts of a number, with or without a sign -/
theorem number_parts {F : Floats} {cs r : List Char} {v : V} (h : number F cs = some (v, r)) :
    ∃ cs' i r', (cs = '-' :: cs' ∨ cs = cs' ∧ cs.head? ≠ some '-') ∧ intPart cs' = some (i, r') ∧ r = (exponent (fraction r').2).2 := by
  by_cases hm : cs.head? = some '-'
  · obtain ⟨t, rfl⟩ : ∃ t, cs = '-' :: t := by cases cs <;> simp_all
    rw [number_neg] at h
    split at h
    · cases h
    · rename_i i r' hi
      refine ⟨t, i, r', .inl rfl, hi, ?_⟩
      split at h <;> cases h <;> rfl
  · rw [number_pos F hm] at h
    split at h
    · cases h
    · rename_i i r' hi
      refine ⟨cs, i, r', .inr ⟨rfl, hm⟩, hi, ?_⟩
      split at h <;> cases h <;> rfl

theorem number_length {F : Floats} {cs r : List Char} {v : V} (h : number F cs = some (v, r)) : r.length < cs.length := by
  obtain ⟨cs', i, r', h1, h2, rfl⟩ := number_parts h
  have := intPart_length h2
  have := fraction_length r'
  have := exponent_length (fraction r').2
  rcases h1 with rfl | ⟨rfl, _⟩
  · simp only [List.length_cons]; omega
  · omega

theorem word_length {w cs r : List Char} (hw : w ≠ []) (h : word w cs = some r) : r.length < cs.length := by
  unfold word at h
  split at h
  · rename_i hp
    cases h
    have := (List.isPrefixOf_iff_prefix.1 hp).length_le
    have := List.length_pos_iff.2 hw
    simp only [List.length_drop]; omega
  · cases h

section
variable {σ : Type} {F : Floats} {hook : List (String × V) → σ → Except PyErr (V × σ)}

theorem atom_length {cs r : List Char} {s s' : σ} {v : V} (h : atom F cs s = .ok (v, r, s')) : r.length < cs.length := by
  unfold atom at h
  split at h
  · rename_i hw; cases h; exact word_length (by simp) hw
  split at h
  · rename_i hw; cases h; exact word_length (by simp) hw
  split at h
  · rename_i hw; cases h; exact word_length (by simp) hw
  split at h
  · rename_i hw; cases h; exact number_length hw
  · split at h <;> cases h

theorem atom_rounds {cs : List Char} {s : σ} : atom F cs s ≠ .error .rounds := by
  unfold atom
  repeat' split
  all_goals simp

theorem close_ok {ps : List (String × V)} {r r' : List Char} {s s' : σ} {v : V} (h : close hook ps r s = .ok (v, r', s')) : r' = r := by
  unfold close at h
  split at h <;> cases h
  rfl

theorem close_rounds {ps : List (String × V)} {r : List Char} {s : σ} : close hook ps r s ≠ .error .rounds := by
  unfold close
  split <;> simp

/-- what is read is used up -/
theorem used (n : Nat) : (∀ cs s v r s', value F hook n cs s = .ok (v, r, s') → r.length < cs.length) ∧
    (∀ cs s vs r s', elements F hook n cs s = .ok (vs, r, s') → r.length < cs.length) ∧
    (∀ cs s ps r s', members F hook n cs s = .ok (ps, r, s') → r.length < cs.length) := by
  induction n with
  | zero => refine ⟨?_, ?_, ?_⟩ <;> (intro cs s v r s' h; simp [value, elements, members] at h)
  | succ n ih =>
    obtain ⟨ih1, ih2, ih3⟩ := ih
    refine ⟨?_, ?_, ?_⟩
    · intro cs s v r s' h
      cases cs with
      | nil => simp [value] at h
      | cons c t =>
        have ht := length_skip t
        rw [value] at h
        split at h
        · split at h
          · cases h
          · rename_i hs
            cases h
            have := scanString_length hs
            simp only [List.length_cons]; omega
        split at h
        · split at h
          · rename_i e
            cases h
            rw [e] at ht
            simp only [List.length_cons] at ht ⊢; omega
          · split at h
            · cases h
            · rename_i he
              cases h
              have := ih2 _ _ _ _ _ he
              simp only [List.length_cons]; omega
        split at h
        · split at h
          · rename_i e
            have := close_ok h
            subst this
            rw [e] at ht
            simp only [List.length_cons] at ht ⊢; omega
          · rename_i e
            split at h
            · cases h
            · rename_i hm
              have := close_ok h
              subst this
              have := ih3 _ _ _ _ _ hm
              rw [e] at ht
              simp only [List.length_cons] at ht ⊢; omega
          · cases h
        · exact atom_length h
    · intro cs s vs r s' h
      rw [elements] at h
      split at h
      · cases h
      · rename_i v r1 s1 hv
        have h1 := ih1 _ _ _ _ _ hv
        have ht := length_skip r1
        split at h
        · rename_i e
          cases h
          rw [e] at ht
          simp only [List.length_cons] at ht; omega
        · rename_i r2 e
          split at h
          · cases h
          · rename_i he
            cases h
            have := ih2 _ _ _ _ _ he
            have := length_skip r2
            rw [e] at ht
            simp only [List.length_cons] at ht; omega
        · cases h
    · intro cs s ps r s' h
      rw [members] at h
      split at h
      · cases h
      · rename_i k r1 hk
        have h1 := scanString_length hk
        have ht := length_skip r1
        split at h
        · rename_i r2 e
          rw [e] at ht
          have h2 := length_skip r2
          split at h
          · cases h
          · rename_i v r3 s3 hv
            have h3 := ih1 _ _ _ _ _ hv
            have h4 := length_skip r3
            split at h
            · rename_i e4
              cases h
              rw [e4] at h4
              simp only [List.length_cons] at ht h4; omega
            · rename_i r4 e4
              rw [e4] at h4
              have h5 := length_skip r4
              split at h
              · rename_i e5
                rw [e5] at h5
                split at h
                · cases h
                · rename_i hm
                  cases h
                  have := ih3 _ _ _ _ _ hm
                  simp only [List.length_cons] at ht h4 h5; omega
              · cases h
            · cases h
        · cases h

theorem enough (n : Nat) : (∀ cs s, 2 * cs.length < n → value F hook n cs s ≠ .error .rounds) ∧
    (∀ cs s, 2 * cs.length + 1 < n → elements F hook n cs s ≠ .error .rounds) ∧
    (∀ cs s, 2 * cs.length < n → members F hook n cs s ≠ .error .rounds) := by
  induction n with
  | zero => refine ⟨?_, ?_, ?_⟩ <;> (intro cs s h; omega)
  | succ n ih =>
    obtain ⟨ih1, ih2, ih3⟩ := ih
    refine ⟨?_, ?_, ?_⟩
    · intro cs s hn hc
      cases cs with
      | nil => simp [value] at hc
      | cons c t =>
        have ht := length_skip t
        simp only [List.length_cons] at hn
        rw [value] at hc
        split at hc
        · split at hc
          · rename_i e hs
            cases hc
            exact scanString_rounds (by omega) hs
          · cases hc
        split at hc
        · split at hc
          · cases hc
          · split at hc
            · rename_i e he
              cases hc
              exact ih2 _ _ (by omega) he
            · cases hc
        split at hc
        · split at hc
          · exact close_rounds hc
          · rename_i e
            rw [e] at ht
            simp only [List.length_cons] at ht
            split at hc
            · rename_i hm
              cases hc
              exact ih3 _ _ (by omega) hm
            · exact close_rounds hc
          · cases hc
        · exact atom_rounds hc
    · intro cs s hn hc
      rw [elements] at hc
      split at hc
      · rename_i hv
        cases hc
        exact ih1 _ _ (by omega) hv
      · rename_i v r1 s1 hv
        have h1 := (used n).1 _ _ _ _ _ hv
        have ht := length_skip r1
        split at hc
        · cases hc
        · rename_i r2 e
          have h2 := length_skip r2
          rw [e] at ht
          simp only [List.length_cons] at ht
          split at hc
          · rename_i he
            cases hc
            exact ih2 _ _ (by omega) he
          · cases hc
        · cases hc
    · intro cs s hn hc
      rw [members] at hc
      split at hc
      · rename_i hs
        cases hc
        exact scanString_rounds (by omega) hs
      · rename_i k r1 hk
        have h1 := scanString_length hk
        have ht := length_skip r1
        split at hc
        · rename_i r2 e
          rw [e] at ht
          have h2 := length_skip r2
          simp only [List.length_cons] at ht
          split at hc
          · rename_i hv
            cases hc
            exact ih1 _ _ (by omega) hv
          · rename_i v r3 s3 hv
            have h3 := (used n).1 _ _ _ _ _ hv
            have h4 := length_skip r3
            split at hc
            · cases hc
            · rename_i r4 e4
              rw [e4] at h4
              have h5 := length_skip r4
              simp only [List.length_cons] at h4
              split at hc
              · rename_i e5
                rw [e5] at h5
                simp only [List.length_cons] at h5
                split at hc
                · rename_i hm
                  cases hc
                  exact ih3 _ _ (by omega) hm
                · cases hc
              · cases hc
            · cases hc
        · cases hc

/-- C75: reading ends for every text, with a value or with an exception: the rounds allowed are enough. -/
theorem C75_total (cs : List Char) (s : σ) : readText F hook cs s ≠ .error .rounds := by
  unfold readText
  split
  · simp
  · have h := length_skip cs
    have := (enough (F := F) (hook := hook) (2 * cs.length + 2)).1 (skip cs) s (by omega)
    split
    · rename_i e he
      rw [he] at this
      intro hc
      cases hc
      exact this rfl
    · split <;> simp
end

/-! ## Reading does not look further than it reads -/

theorem hex4_stable {r r' : List Char} {n : Nat} (h : hex4 r = some (n, r')) (q : List Char) : hex4 (r ++ q) = some (n, r' ++ q) := by
  match r, h with
  | a :: b :: c :: d :: r, h =>
    simp only [hex4, List.cons_append] at h ⊢
    split at h
    · simp only [Option.some.injEq, Prod.mk.injEq] at h
      obtain ⟨rfl, rfl⟩ := h
      rfl
    · cases h

theorem secondHalf_stable {n : Nat} {r r' : List Char} {c : Char} (h : secondHalf n r = .ok (c, r')) (q : List Char) : secondHalf n (r ++ q) = .ok (c, r' ++ q) := by
  have hr : ∃ t, r = '\\' :: 'u' :: t := by
    unfold secondHalf at h
    split at h
    · exact ⟨_, rfl⟩
    · cases h
  obtain ⟨r, rfl⟩ := hr
  · simp only [secondHalf, List.cons_append] at h ⊢
    cases hh : hex4 r with
    | none => simp [hh] at h
    | some p =>
      obtain ⟨k, r1⟩ := p
      simp only [hh] at h
      simp only [hex4_stable hh]
      by_cases hk : 0xdc00 ≤ k ∧ k ≤ 0xdfff
      · rw [if_pos hk] at h ⊢
        simp only [Except.ok.injEq, Prod.mk.injEq] at h ⊢
        exact ⟨h.1, by rw [h.2]⟩
      · rw [if_neg hk] at h
        cases h

theorem unit_stable {cs r : List Char} {c : Char} (h : unit cs = .ok (c, r)) (q : List Char) : unit (cs ++ q) = .ok (c, r ++ q) := by
  by_cases hb : cs.head? = some '\\'
  · obtain ⟨t, rfl⟩ : ∃ t, cs = '\\' :: t := by cases cs <;> simp_all
    unfold unit at h
    split at h
    all_goals first
      | (rename_i e; cases e; done)
      | skip
    all_goals first
      | (rename_i e; injection e with _ e; subst e; simp only [Except.ok.injEq, Prod.mk.injEq] at h; obtain ⟨rfl, rfl⟩ := h; rfl)
      | skip
    · rename_i r1 e
      injection e with _ e
      subst e
      simp only [List.cons_append, unit]
      cases hh : hex4 r1 with
      | none => simp [hh] at h
      | some p =>
        obtain ⟨k, r2⟩ := p
        simp only [hh] at h
        simp only [hex4_stable hh]
        by_cases h1 : 0xd800 ≤ k ∧ k ≤ 0xdbff
        · rw [if_pos h1] at h ⊢
          exact secondHalf_stable h q
        · rw [if_neg h1] at h ⊢
          by_cases h2 : 0xdc00 ≤ k ∧ k ≤ 0xdfff
          · rw [if_pos h2] at h; cases h
          · rw [if_neg h2] at h ⊢
            simp only [Except.ok.injEq, Prod.mk.injEq] at h ⊢
            exact ⟨h.1, by rw [h.2]⟩
    · cases h
    · rename_i hne e
      injection e with e1 e2
      exact absurd e1.symm hne
  · cases cs with
    | nil => simp [unit] at h
    | cons d t =>
      have hd : d ≠ '\\' := by simpa using hb
      by_cases hs : d < ' '
      · exfalso
        unfold unit at h
        split at h <;> simp_all
      · rw [unit_raw hd hs] at h
        cases h
        exact unit_raw hd hs _

theorem scanString_stable {n : Nat} {cs s r : List Char} (h : scanString n cs = .ok (s, r)) {m : Nat} (hm : n ≤ m) (q : List Char) :
    scanString m (cs ++ q) = .ok (s, r ++ q) := by
  induction n generalizing cs s r m with
  | zero => simp [scanString] at h
  | succ n ih =>
    obtain ⟨m, rfl⟩ : ∃ k, m = k + 1 := ⟨m - 1, by omega⟩
    by_cases hq : cs.head? = some '"'
    · obtain ⟨t, rfl⟩ : ∃ t, cs = '"' :: t := by cases cs <;> simp_all
      simp [scanString] at h ⊢
      obtain ⟨rfl, rfl⟩ := h
      simp
    · cases cs with
      | nil => simp [scanString, unit] at h
      | cons d t =>
        rw [scanString_step hq] at h
        rw [scanString_step (by simpa using hq)]
        cases hu : unit (d :: t) with
        | error e => simp [hu] at h
        | ok p =>
          obtain ⟨c, r1⟩ := p
          simp only [hu] at h
          simp only [unit_stable hu]
          cases hs : scanString n r1 with
          | error e => simp [hs] at h
          | ok p =>
            obtain ⟨s1, r2⟩ := p
            simp only [hs] at h
            simp only [ih hs (show n ≤ m by omega)]
            simp only [Except.ok.injEq, Prod.mk.injEq] at h ⊢
            exact ⟨h.1, by rw [h.2]⟩

theorem while_stable {p : Char → Bool} {l : List Char} (h : l.dropWhile p ≠ []) (q : List Char) :
    (l ++ q).takeWhile p = l.takeWhile p ∧ (l ++ q).dropWhile p = l.dropWhile p ++ q := by
  induction l with
  | nil => simp at h
  | cons c l ih =>
    by_cases hc : p c = true
    · simp only [List.dropWhile_cons, hc, if_true] at h
      simp [hc, ih h]
    · simp [hc]

theorem skip_stable {r : List Char} {c : Char} {t : List Char} (h : skip r = c :: t) (q : List Char) : skip (r ++ q) = c :: (t ++ q) := by
  unfold skip at h ⊢
  rw [(while_stable (by rw [h]; simp) q).2, h]
  rfl

theorem intPart_stable {cs i r : List Char} (h : intPart cs = some (i, r)) (hr : r ≠ []) (q : List Char) : intPart (cs ++ q) = some (i, r ++ q) := by
  cases cs with
  | nil => simp [intPart] at h
  | cons c t =>
    simp only [intPart, List.cons_append] at h ⊢
    split at h
    · rename_i hc
      rw [if_pos hc]
      cases h
      rfl
    · rename_i hc
      rw [if_neg hc]
      split at h
      · rename_i hd
        rw [if_pos hd]
        simp only [Option.some.injEq, Prod.mk.injEq] at h
        obtain ⟨rfl, rfl⟩ := h
        rw [(while_stable hr q).1, (while_stable hr q).2]
      · cases h

theorem fraction_stable {r : List Char} (h1 : (fraction r).2 ≠ []) (h2 : (fraction r).2.head? ≠ some '.') (q : List Char) :
    fraction (r ++ q) = ((fraction r).1, (fraction r).2 ++ q) := by
  by_cases hd : r.head? = some '.'
  · obtain ⟨t, rfl⟩ : ∃ t, r = '.' :: t := by cases r <;> simp_all
    simp only [fraction, List.cons_append] at h1 h2 ⊢
    by_cases ht : t.takeWhile Char.isDigit = []
    · simp [ht] at h2
    · rw [if_neg ht] at h1 h2 ⊢
      rw [(while_stable h1 q).1, (while_stable h1 q).2, if_neg ht]
  · rw [fraction_none hd] at h1 ⊢
    rw [fraction_none]
    cases r <;> simp_all

theorem sign_stable {r : List Char} (h : r ≠ []) (q : List Char) : sign (r ++ q) = ((sign r).1, (sign r).2 ++ q) := by
  cases r with
  | nil => simp at h
  | cons c t =>
    simp only [sign, List.cons_append]
    split <;> rfl

theorem exponent_stable {r : List Char} (h1 : (exponent r).2 ≠ []) (h2 : (exponent r).2.head? ≠ some 'e' ∧ (exponent r).2.head? ≠ some 'E') (q : List Char) :
    exponent (r ++ q) = ((exponent r).1, (exponent r).2 ++ q) := by
  cases r with
  | nil => simp [exponent] at h1
  | cons c t =>
    simp only [exponent, List.cons_append] at h1 h2 ⊢
    by_cases hc : c = 'e' ∨ c = 'E'
    · simp only [hc, if_true] at h1 h2 ⊢
      by_cases ht : (sign t).2.takeWhile Char.isDigit = []
      · simp only [ht, if_true, List.head?_cons, ne_eq, Option.some.injEq] at h2
        rcases hc with rfl | rfl
        · exact absurd rfl h2.1
        · exact absurd rfl h2.2
      · rw [if_neg ht] at h1 h2 ⊢
        have hne : t ≠ [] := by rintro rfl; simp [sign] at ht
        rw [sign_stable hne]
        simp only
        rw [(while_stable h1 q).1, (while_stable h1 q).2, if_neg ht]
    · simp [hc]

/-- a number is not read differently if something follows what ends it -/
theorem number_stable {F : Floats} {cs r : List Char} {v : V} (h : number F cs = some (v, r)) (hne : r ≠ []) (hr : Ends r) (q : List Char) :
    number F (cs ++ q) = some (v, r ++ q) := by
  have core : ∀ {cs' i r'}, intPart cs' = some (i, r') → r = (exponent (fraction r').2).2 →
      intPart (cs' ++ q) = some (i, r' ++ q) ∧ fraction (r' ++ q) = ((fraction r').1, (fraction r').2 ++ q) ∧
      exponent ((fraction r').2 ++ q) = ((exponent (fraction r').2).1, r ++ q) := by
    intro cs' i r' hi he
    have h1 : (exponent (fraction r').2).2 ≠ [] := he ▸ hne
    have h2 := exponent_stable h1 (by
      rw [← he]
      constructor <;> intro hc
      · exact (hr _ hc).2.2.1 rfl
      · exact (hr _ hc).2.2.2 rfl) q
    have h3 : (fraction r').2 ≠ [] := by intro hc; rw [hc] at h1; simp [exponent] at h1
    have h4 : (fraction r').2.head? ≠ some '.' := by
      intro hc
      obtain ⟨t, ht⟩ : ∃ t, (fraction r').2 = '.' :: t := by cases hf : (fraction r').2 <;> simp_all
      rw [ht] at he
      simp [exponent] at he
      exact (hr '.' (by rw [he]; rfl)).2.1 rfl
    have h5 : r' ≠ [] := by rintro rfl; simp [fraction] at h3
    exact ⟨intPart_stable hi h5 q, fraction_stable h3 h4 q, by rw [h2, he]⟩
  obtain ⟨cs', i, r', h1, h2, h3⟩ := number_parts h
  obtain ⟨k1, k2, k3⟩ := core h2 h3
  rcases h1 with rfl | ⟨rfl, hm⟩
  · rw [number_neg, h2] at h
    rw [List.cons_append, number_neg, k1]
    simp only [k2, k3] at h ⊢
    split at h <;> rename_i hc <;> simp only [hc, and_self, if_true, if_false] <;> simp_all
  · have hm' : (cs ++ q).head? ≠ some '-' := by
      cases cs with
      | nil => simp [intPart] at h2
      | cons c t => simpa using hm
    rw [number_pos F hm, h2] at h
    rw [number_pos F hm', k1]
    simp only [k2, k3] at h ⊢
    split at h <;> rename_i hc <;> simp only [hc, and_self, if_true, if_false] <;> simp_all

theorem word_stable {w cs r : List Char} (h : word w cs = some r) (q : List Char) : word w (cs ++ q) = some (r ++ q) := by
  unfold word at h ⊢
  split at h
  · rename_i hp
    obtain ⟨t, rfl⟩ := List.isPrefixOf_iff_prefix.1 hp
    cases h
    rw [if_pos (List.isPrefixOf_iff_prefix.2 ⟨t ++ q, by simp⟩)]
    simp
  · cases h

theorem number_lead {F : Floats} {cs r : List Char} {v : V} (h : number F cs = some (v, r)) : ∃ c, cs.head? = some c ∧ (c = '-' ∨ c.isDigit = true) := by
  obtain ⟨cs', i, r', h1, h2, _⟩ := number_parts h
  rcases h1 with rfl | ⟨rfl, _⟩
  · exact ⟨'-', rfl, .inl rfl⟩
  · cases cs with
    | nil => simp [intPart] at h2
    | cons c t =>
      refine ⟨c, rfl, .inr ?_⟩
      simp only [intPart] at h2
      split at h2
      · rename_i hc; subst hc; decide
      · split at h2
        · assumption
        · cases h2

/-- what closes a value: whitespace, a comma or a bracket -/
def Stops (c : Char) : Prop := isWhite c = true ∨ c = ',' ∨ c = ']' ∨ c = '}'

theorem Stops.ends {c : Char} (h : Stops c) (t : List Char) : Ends (c :: t) := by
  apply ends_cons
  rcases h with h | rfl | rfl | rfl
  · rcases isWhite_iff.1 h with rfl | rfl | rfl | rfl <;> decide
  all_goals decide

theorem skip_stops {r : List Char} {c : Char} {t : List Char} (h : skip r = c :: t) (hc : Stops c) : ∃ d u, r = d :: u ∧ Stops d := by
  cases r with
  | nil => simp [skip] at h
  | cons d u =>
    refine ⟨d, u, rfl, ?_⟩
    by_cases hd : isWhite d = true
    · exact .inl hd
    · rw [skip_solid (by simpa using hd)] at h
      cases h
      exact hc

/-- the first character says that it is a string, a list or a dictionary -/
def Bracketed (cs : List Char) : Prop := ∃ c t, cs = c :: t ∧ (c = '"' ∨ c = '[' ∨ c = '{')

section
variable {σ : Type} {F : Floats} {hook : List (String × V) → σ → Except PyErr (V × σ)}

theorem atom_stable {cs r : List Char} {s s' : σ} {v : V} (h : atom F cs s = .ok (v, r, s')) {d : Char} {u : List Char} (hr : r = d :: u) (hd : Stops d) (q : List Char) :
    atom F (cs ++ q) s = .ok (v, r ++ q, s') := by
  unfold atom at h
  split at h
  · rename_i hw
    cases h
    unfold atom
    rw [word_stable hw]
  rename_i h0
  split at h
  · rename_i r1 hw
    cases h
    have hh := word_stable hw q
    have : (cs ++ q).head? ≠ some 'n' := by
      unfold word at hh
      split at hh
      · rename_i hp
        obtain ⟨t, ht⟩ := List.isPrefixOf_iff_prefix.1 hp
        rw [← ht]; simp
      · cases hh
    unfold atom
    rw [word_none (a := 'n') rfl this, hh]
  split at h
  · rename_i r1 hw
    cases h
    have hh := word_stable hw q
    have : (cs ++ q).head? ≠ some 'n' ∧ (cs ++ q).head? ≠ some 't' := by
      unfold word at hh
      split at hh
      · rename_i hp
        obtain ⟨t, ht⟩ := List.isPrefixOf_iff_prefix.1 hp
        rw [← ht]; simp
      · cases hh
    unfold atom
    rw [word_none (a := 'n') rfl this.1, word_none (a := 't') rfl this.2, hh]
  split at h
  · rename_i hn
    cases h
    obtain ⟨c, h1, h2⟩ := number_lead hn
    have := number_stable hn (by rw [hr]; simp) (hr ▸ hd.ends u) q
    exact atom_number (c := c) (by cases cs <;> simp_all) h2 this _
  · split at h <;> cases h

theorem close_stable {ps : List (String × V)} {r r' : List Char} {s s' : σ} {v : V} (h : close hook ps r s = .ok (v, r', s')) (q : List Char) :
    close hook ps (r ++ q) s = .ok (v, r' ++ q, s') := by
  unfold close at h ⊢
  cases hh : hook (Dict.setAll [] ps) s with
  | error e => simp [hh] at h
  | ok p => simp_all

theorem elements_nil (n : Nat) (s : σ) (x : List V × List Char × σ) : elements F hook n [] s ≠ .ok x := by
  match n with
  | 0 => simp [elements]
  | 1 => simp [elements, value]
  | n + 2 => simp [elements, value]

theorem stable (n : Nat) :
    (∀ cs s v r s', value F hook n cs s = .ok (v, r, s') → (Bracketed cs ∨ ∃ d u, r = d :: u ∧ Stops d) → ∀ m q, n ≤ m → value F hook m (cs ++ q) s = .ok (v, r ++ q, s')) ∧
    (∀ cs s vs r s', elements F hook n cs s = .ok (vs, r, s') → ∀ m q, n ≤ m → elements F hook m (cs ++ q) s = .ok (vs, r ++ q, s')) ∧
    (∀ cs s ps r s', members F hook n cs s = .ok (ps, r, s') → ∀ m q, n ≤ m → members F hook m (cs ++ q) s = .ok (ps, r ++ q, s')) := by
  induction n with
  | zero => refine ⟨?_, ?_, ?_⟩ <;> (intro cs s v r s' h; simp [value, elements, members] at h)
  | succ n ih =>
    obtain ⟨ih1, ih2, ih3⟩ := ih
    refine ⟨?_, ?_, ?_⟩
    · intro cs s v r s' h hb m q hm
      obtain ⟨m, rfl⟩ : ∃ k, m = k + 1 := ⟨m - 1, by omega⟩
      have hm : n ≤ m := by omega
      cases cs with
      | nil => simp [value] at h
      | cons c t =>
        rw [value] at h
        rw [List.cons_append, value]
        by_cases h1 : c = '"'
        · rw [if_pos h1] at h ⊢
          split at h
          · cases h
          · rename_i hs
            cases h
            rw [scanString_stable hs (by simp only [List.length_append]; omega)]
        rw [if_neg h1] at h ⊢
        by_cases h2 : c = '['
        · rw [if_pos h2] at h ⊢
          split at h
          · rename_i e
            cases h
            rw [skip_stable e]
            rfl
          · rename_i hne
            split at h
            · cases h
            · rename_i he
              cases h
              have he' := ih2 _ _ _ _ _ he m q hm
              cases hk : skip t with
              | nil => rw [hk] at he; exact absurd he (elements_nil n _ _)
              | cons d u =>
                rw [skip_stable hk]
                rw [hk, List.cons_append] at he'
                have hd : d ≠ ']' := by rintro rfl; exact hne u hk
                split
                · rename_i e; injection e with e _; exact absurd e hd
                · rw [he']
        rw [if_neg h2] at h ⊢
        by_cases h3 : c = '{'
        · rw [if_pos h3] at h ⊢
          split at h
          · rename_i e
            rw [skip_stable e]
            exact close_stable h q
          · rename_i e
            split at h
            · cases h
            · rename_i hme
              rw [skip_stable e]
              simp only [ih3 _ _ _ _ _ hme m q hm]
              exact close_stable h q
          · cases h
        · rw [if_neg h3] at h ⊢
          rcases hb with ⟨d, u, e, hd⟩ | ⟨d, u, e, hd⟩
          · cases e
            rcases hd with rfl | rfl | rfl <;> contradiction
          · exact atom_stable h e hd q
    · intro cs s vs r s' h m q hm
      obtain ⟨m, rfl⟩ : ∃ k, m = k + 1 := ⟨m - 1, by omega⟩
      have hm : n ≤ m := by omega
      rw [elements] at h ⊢
      split at h
      · cases h
      · rename_i v r1 s1 hv
        split at h
        · rename_i e
          cases h
          rw [ih1 _ _ _ _ _ hv (.inr (skip_stops e (by simp [Stops]))) m q hm]
          simp only [skip_stable e]
        · rename_i r2 e
          rw [ih1 _ _ _ _ _ hv (.inr (skip_stops e (by simp [Stops]))) m q hm]
          simp only [skip_stable e]
          split at h
          · cases h
          · rename_i he
            cases h
            have he' := ih2 _ _ _ _ _ he m q hm
            cases hk : skip r2 with
            | nil => rw [hk] at he; exact absurd he (elements_nil n _ _)
            | cons d u =>
              rw [skip_stable hk]
              rw [hk, List.cons_append] at he'
              rw [he']
        · cases h
    · intro cs s ps r s' h m q hm
      obtain ⟨m, rfl⟩ : ∃ k, m = k + 1 := ⟨m - 1, by omega⟩
      have hm : n ≤ m := by omega
      rw [members] at h ⊢
      split at h
      · cases h
      · rename_i k r1 hk
        rw [scanString_stable hk (by simp only [List.length_append]; omega)]
        split at h
        · rename_i r2 e
          simp only [skip_stable e]
          split at h
          · cases h
          · rename_i v r3 s3 hv
            have hv' : ∀ {d u}, skip r3 = d :: u → Stops d → value F hook m (skip (r2 ++ q)) s = .ok (v, r3 ++ q, s3) := by
              intro d u e3 hd
              have := ih1 _ _ _ _ _ hv (.inr (skip_stops e3 hd)) m q hm
              cases hk : skip r2 with
              | nil => rw [hk] at hv; cases n <;> simp [value] at hv
              | cons d u =>
                rw [skip_stable hk]
                rw [hk, List.cons_append] at this
                rw [this]
            split at h
            · rename_i e4
              cases h
              rw [hv' e4 (by simp [Stops])]
              simp only [skip_stable e4]
            · rename_i r4 e4
              rw [hv' e4 (by simp [Stops])]
              simp only [skip_stable e4]
              split at h
              · rename_i e5
                simp only [skip_stable e5]
                split at h
                · cases h
                · rename_i hme
                  cases h
                  rw [ih3 _ _ _ _ _ hme m q hm]
              · cases h
            · cases h
        · cases h

/-- C75: the text of a dictionary, a list or a string that was cut off somewhere is not read, whatever the hook is. -/
theorem C75_truncated {st : Style} (hst : st.Fine) (v : V) (hv : Tree F v) (hk : (∃ ks vs, v = .dict ks vs) ∨ (∃ l, v = .list l) ∨ ∃ t, v = .str t)
    (p q : List Char) (hpq : text F st 0 v = p ++ q) (hq : q ≠ []) (s : σ) : ∃ e, readText F hook p s = .error (.raised e) := by
  have hno : ∀ x, readText F hook p s ≠ .ok x := by
    rintro ⟨w, s'⟩ h
    unfold readText at h
    split at h
    · cases h
    split at h
    · cases h
    rename_i v' r s1 hval
    split at h
    · rename_i hr
      have hb : Bracketed (text F st 0 v) := by
        rcases hk with ⟨ks, vs, rfl⟩ | ⟨l, rfl⟩ | ⟨t, rfl⟩
        · cases ks <;> exact ⟨_, _, by rw [text], by simp⟩
        · cases l <;> exact ⟨_, _, by rw [text], by simp⟩
        · exact ⟨_, _, by rw [text, quote], by simp⟩
      obtain ⟨c, t, h1, h2⟩ := hb
      have hskip : skip p = p := by
        cases p with
        | nil => rfl
        | cons d u =>
          rw [h1, List.cons_append] at hpq
          cases hpq
          apply skip_solid
          rcases h2 with rfl | rfl | rfl <;> decide
      rw [hskip] at hval
      have hbp : Bracketed p := by
        cases p with
        | nil => simp [value] at hval
        | cons d u =>
          rw [h1, List.cons_append] at hpq
          cases hpq
          exact ⟨c, u, rfl, h2⟩
      have := (stable _).1 _ _ _ _ _ hval (.inl hbp) (2 * (text F st 0 v).length + 2) q (by rw [hpq]; simp only [List.length_append]; omega)
      rw [← hpq] at this
      have full := value_text (hook := hook) hst v hv 0 (2 * (text F st 0 v).length + 2) [] s (by omega) (by simp [Ends])
      rw [List.append_nil, this] at full
      unfold follow at full
      split at full
      · cases full
      · simp only [Except.ok.injEq, Prod.mk.injEq, List.append_eq_nil_iff] at full
        exact hq full.2.1.2
    · cases h
  cases h : readText F hook p s with
  | ok x => exact absurd h (hno x)
  | error e =>
    cases e with
    | rounds => exact absurd h (C75_total p s)
    | raised e => exact ⟨e, rfl⟩

theorem skip_nil {b : List Char} (h : Verif.JsonText.skip b = []) : ∀ c ∈ b, isWhite c = true := by
  induction b with
  | nil => simp
  | cons c b ih =>
    by_cases hc : isWhite c = true
    · simp only [JsonText.skip, List.dropWhile_cons, hc, if_true] at h
      intro d hd
      rcases List.mem_cons.1 hd with rfl | hd
      · exact hc
      · exact ih h d hd
    · rw [skip_solid (by simpa using hc)] at h
      cases h

/-- C75: nothing but whitespace may follow the text of a tree (what follows a number must not continue it). -/
theorem C75_trailing {st : Style} (hst : st.Fine) (v : V) (hv : Tree F v) (b : List Char) (hb : Ends b) (hne : ¬ White b) (s : σ) :
    readText F hook (text F st 0 v ++ b) s = .error (.raised (match dec hook v s with
      | .error e => e
      | .ok _ => .valueError)) := by
  obtain ⟨c, t, h1, h2⟩ := text_head (st := st) hv 0
  unfold readText
  rw [if_neg]
  · have hskip : skip (text F st 0 v ++ b) = text F st 0 v ++ b := by rw [h1, List.cons_append, skip_solid h2.solid.1]
    rw [hskip, value_text hst v hv 0 _ b s (by simp only [List.length_append]; omega) hb]
    cases dec hook v s with
    | error e => rfl
    | ok p =>
      have : skip b ≠ [] := by
        intro hs
        apply hne
        intro c hc
        apply isWhite_iff.1
        exact skip_nil hs c hc
      simp [follow, this]
  · rw [h1]
    simp only [List.cons_append, List.head?_cons, Option.some.injEq]
    exact h2.solid.2.2
end

/-- a number that was cut off is read as another number -/
example : readText someFloats plainHook ['1'] () = .ok (.int 1, ()) ∧ text someFloats .default 0 (.int 12) = ['1'] ++ ['2'] := by decide +kernel

/-! ## The text is ASCII -/

/-- codes below 128 -/
def Ascii (l : List Char) : Prop := ∀ c ∈ l, c.toNat < 128

theorem ascii_append {a b : List Char} (ha : Ascii a) (hb : Ascii b) : Ascii (a ++ b) := by
  intro c hc
  rcases List.mem_append.1 hc with h | h
  · exact ha c h
  · exact hb c h

theorem ascii_cons {c : Char} {l : List Char} (hc : c.toNat < 128) (hl : Ascii l) : Ascii (c :: l) := by
  intro d hd
  rcases List.mem_cons.1 hd with rfl | h
  · exact hc
  · exact hl d h

theorem ascii_nil : Ascii [] := by simp [Ascii]

theorem hexDigit_ascii : ∀ k, k < 16 → (hexDigit k).toNat < 128 := by decide

theorem uEscape_ascii (n : Nat) : Ascii (uEscape n) := by
  have := fun k => hexDigit_ascii (k % 16) (Nat.mod_lt _ (by decide))
  exact ascii_cons (by decide) (ascii_cons (by decide) (ascii_cons (this _) (ascii_cons (this _) (ascii_cons (this _) (ascii_cons (this _) ascii_nil)))))

theorem escape_ascii (c : Char) : Ascii (escape true c) := by
  unfold escape
  repeat' split
  all_goals first
    | exact uEscape_ascii _
    | exact ascii_append (uEscape_ascii _) (uEscape_ascii _)
    | (simp [Ascii]; done)
    | skip
  rename_i h
  refine ascii_cons ?_ ascii_nil
  have : c ≤ '~' := by simpa using h.2
  have : c.toNat ≤ '~'.toNat := this
  have h2 : '~'.toNat = 126 := by decide
  omega

theorem quote_ascii (s : String) : Ascii (quote true s) := by
  refine ascii_cons (by decide) (ascii_append ?_ (ascii_cons (by decide) ascii_nil))
  intro c hc
  obtain ⟨d, _, hd⟩ := List.mem_flatMap.1 hc
  exact escape_ascii d c hd

theorem digit_ascii {c : Char} (h : c.isDigit = true) : c.toNat < 128 := by
  simp only [Char.isDigit, Bool.and_eq_true, decide_eq_true_eq] at h
  have := UInt32.le_iff_toNat_le.1 h.2
  have h2 : ('9' : Char).val.toNat = 57 := by decide
  have : c.toNat ≤ 57 := this
  omega

theorem digits_ascii {l : List Char} (h : Digits l) : Ascii l := fun c hc => digit_ascii (h.2 c hc)

theorem lead_ascii {i : List Char} (hi : i = ['0'] ∨ Digits i ∧ i.head? ≠ some '0') : Ascii i := by
  rcases hi with rfl | ⟨h, _⟩
  · exact ascii_cons (by decide) ascii_nil
  · exact digits_ascii h

theorem float_ascii {l : List Char} (h : IsFloat l) : Ascii l := by
  obtain ⟨m, i, f, e, rfl, hm, hi, hf, he, _⟩ := h
  refine ascii_append ?_ (ascii_append (lead_ascii hi) (ascii_append ?_ ?_))
  · rcases hm with rfl | rfl
    · exact ascii_nil
    · exact ascii_cons (by decide) ascii_nil
  · rcases hf with rfl | ⟨ds, h, rfl⟩
    · exact ascii_nil
    · exact ascii_cons (by decide) (digits_ascii h)
  · rcases he with rfl | ⟨c, g, ds, hc, hg, h, rfl⟩
    · exact ascii_nil
    · refine ascii_cons (by rcases hc with rfl | rfl <;> decide) (ascii_append ?_ (digits_ascii h))
      rcases hg with rfl | rfl | rfl
      · exact ascii_nil
      · exact ascii_cons (by decide) ascii_nil
      · exact ascii_cons (by decide) ascii_nil

theorem white_ascii {l : List Char} (h : White l) : Ascii l := by
  intro c hc
  rcases h c hc with rfl | rfl | rfl | rfl <;> decide

section
variable {F : Floats} {st : Style}

theorem sep_ascii {l : List Char} {x : Char} (hx : x.toNat < 128) (h : ∃ a b, l = a ++ x :: b ∧ White a ∧ White b) : Ascii l := by
  obtain ⟨a, b, rfl, ha, hb⟩ := h
  exact ascii_append (white_ascii ha) (ascii_cons hx (white_ascii hb))

theorem pairs_ascii (ha : st.ascii = true) (hst : st.Fine) (level : Nat) (ks vs : List V) (hv : ∀ v ∈ vs, Ascii (text F st level v)) : Ascii (pairs F st level ks vs) := by
  induction vs generalizing ks with
  | nil =>
    rw [pairs]
    · exact ascii_nil
    · simp
    · simp
  | cons v vs ih =>
    have h1 := hv v (by simp)
    cases ks with
    | nil => simp [pairs, ascii_nil]
    | cons k ks =>
      cases k with
      | str k =>
        cases ks with
        | nil =>
          cases vs with
          | nil =>
            rw [pairs, ha]
            exact ascii_append (quote_ascii _) (ascii_append (sep_ascii (by decide) hst.key) h1)
          | cons w vs => simp [pairs, ascii_nil]
        | cons k' ks =>
          rw [pairs, ha]
          exact ascii_append (quote_ascii _) (ascii_append (sep_ascii (by decide) hst.key) (ascii_append h1
            (ascii_append (sep_ascii (by decide) hst.item) (ascii_append (white_ascii (white_newline hst _)) (ih _ (fun w hw => hv w (by simp [hw])))))))
      | _ => simp [pairs, ascii_nil]

mutual
theorem text_ascii (ha : st.ascii = true) (hst : st.Fine) (v : V) (hv : Tree F v) (level : Nat) : Ascii (text F st level v) := by
  match v, hv with
  | .none, _ => simp [text, Ascii]
  | .bool true, _ => simp [text, Ascii]
  | .bool false, _ => simp [text, Ascii]
  | .int i, _ =>
    rw [text, intText]
    split
    · exact ascii_cons (by decide) (lead_ascii (toDigits_lead _))
    · exact lead_ascii (toDigits_lead _)
  | .float q, h =>
    rw [text]
    rw [Tree] at h
    exact float_ascii h.1
  | .str s, _ =>
    rw [text, ha]
    exact quote_ascii s
  | .list [], _ => simp [text, Ascii]
  | .list (v :: vs), h =>
    rw [Tree] at h
    rw [text]
    exact ascii_cons (by decide) (ascii_append (white_ascii (white_newline hst _)) (ascii_append (items_ascii ha hst (v :: vs) h _)
      (ascii_append (white_ascii (white_newline hst _)) (ascii_cons (by decide) ascii_nil))))
  | .dict [] _, _ => simp [text, Ascii]
  | .dict (k :: ks) vs, h =>
    rw [Tree] at h
    rw [text]
    exact ascii_cons (by decide) (ascii_append (white_ascii (white_newline hst _)) (ascii_append (pairs_ascii ha hst _ (k :: ks) vs (texts_ascii ha hst vs h.2 _))
      (ascii_append (white_ascii (white_newline hst _)) (ascii_cons (by decide) ascii_nil))))
theorem items_ascii (ha : st.ascii = true) (hst : st.Fine) (vs : List V) (hv : Trees F vs) (level : Nat) : Ascii (items F st level vs) := by
  match vs, hv with
  | [], _ => simp [items, Ascii]
  | [v], h =>
    rw [Trees] at h
    rw [items]
    exact text_ascii ha hst v h.1 level
  | v :: w :: vs, h =>
    rw [Trees] at h
    rw [items]
    exact ascii_append (text_ascii ha hst v h.1 level) (ascii_append (sep_ascii (by decide) hst.item) (ascii_append (white_ascii (white_newline hst _)) (items_ascii ha hst (w :: vs) h.2 level)))
theorem texts_ascii (ha : st.ascii = true) (hst : st.Fine) (vs : List V) (hv : Trees F vs) (level : Nat) : ∀ v ∈ vs, Ascii (text F st level v) := by
  match vs, hv with
  | [], _ => simp
  | v :: vs, h =>
    rw [Trees] at h
    intro w hw
    rcases List.mem_cons.1 hw with e | hw
    · rw [e]; exact text_ascii ha hst v h.1 level
    · exact texts_ascii ha hst vs h.2 level w hw
end

/-- C75: unless `ensure_ascii=False` is handed on, the text consists of ASCII characters, whatever the strings of the tree are: files are the same in any common encoding. -/
theorem C75_ascii (ha : st.ascii = true) (hst : st.Fine) (v : V) (hv : Tree F v) : ∀ c ∈ text F st 0 v, c.toNat < 128 := text_ascii ha hst v hv 0
end

/-- with `ensure_ascii=False` it need not -/
example : text someFloats { Style.default with ascii := false } 0 (.str "é") = ['"', 'é', '"'] ∧ text someFloats .default 0 (.str "é") = "\"\\u00e9\"".toList := by decide +kernel

end Verif.JsonText
