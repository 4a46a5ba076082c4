import Verif.Model.Version
import Verif.Props.Regex
import Verif.Props.SciRegex
/-!
# C74: the check of the version number
-/

set_option linter.unusedSimpArgs false

namespace Verif.Version
open Verif.Py Verif.Regex

/-! ## Specification -/

/-- the text after `before` begins with a line `__version__ = "v"` (blanks and line ends around the equals sign and at the start allowed) -/
def Declares (text before v : List Char) : Prop :=
  ∃ s1 s2 s3 after q, text = before ++ (s1 ++ ("__version__".toList ++ (s2 ++ ('=' :: (s3 ++ (q :: (v ++ (q :: after)))))))) ∧
    (before = [] ∨ ∃ b, before = b ++ ['\n']) ∧ (after = [] ∨ ∃ a, after = '\n' :: a) ∧ (q = '\'' ∨ q = '"') ∧
    (∀ c ∈ s1 ++ s2 ++ s3, c ∈ " \t\n\r\x0b\x0c".toList) ∧ v ≠ [] ∧ ∀ c ∈ v, c.isAlphanum = true ∨ c = '_' ∨ c = '.'

/-- one version is before another: the first release number that differs (missing ones are 0) is smaller, or none differs and the rest of the key is smaller -/
def Before {S : Type} (lt : S → S → Bool) (v w : Ver S) : Prop :=
  (∃ i, (∀ j < i, v.release.getD j 0 = w.release.getD j 0) ∧ v.release.getD i 0 < w.release.getD i 0) ∨
  ((∀ j, v.release.getD j 0 = w.release.getD j 0) ∧ lt v.suffix w.suffix = true)

/-- the rest of the key is ordered -/
structure Ordered {S : Type} (lt : S → S → Bool) : Prop where
  irrefl : ∀ a, lt a a = false
  asymm : ∀ a b, lt a b = true → lt b a = false
  total : ∀ a b, lt a b = false → lt b a = false → a = b

/-! ## The expression -/

theorem mem_text {t : List Char} {pv : Option Char} {s : List Char} {g : List (Nat × List Char)} {d : At} :
    d ∈ (Re.text t).run ⟨pv, s, g⟩ ↔ ∃ u, s = t ++ u ∧ d = ⟨last pv t, u, g⟩ := by
  induction t generalizing pv s with
  | nil => simp [Re.text, last]
  | cons c cs ih =>
    simp only [Re.text, mem_seq, mem_lit]
    constructor
    · rintro ⟨e, ⟨xs, rfl, rfl⟩, hd⟩
      obtain ⟨u, rfl, rfl⟩ := ih.1 hd
      exact ⟨u, rfl, rfl⟩
    · rintro ⟨u, rfl, rfl⟩
      exact ⟨_, ⟨cs ++ u, rfl, rfl⟩, ih.2 ⟨u, rfl, rfl⟩⟩

theorem mem_look {p : Option Char → Option Char → Bool} {c d : At} : d ∈ (Re.look p).run c ↔ p c.prev c.rest.head? = true ∧ d = c := by
  simp only [Re.run]
  split
  · rename_i h; simp [h]
  · rename_i h; simp [h]

theorem mem_quoted {q : Char} {pv : Option Char} {s : List Char} {g : List (Nat × List Char)} {d : At} :
    d ∈ (quotedRe q).run ⟨pv, s, g⟩ ↔ ∃ v after, s = q :: (v ++ (q :: after)) ∧ v ≠ [] ∧ v.all inVersion = true ∧
      (after = [] ∨ ∃ a, after = '\n' :: a) ∧ d = ⟨some q, after, (2, v) :: g⟩ := by
  unfold quotedRe
  rw [mem_seq]
  constructor
  · rintro ⟨e1, h1, hd⟩
    obtain ⟨xs, rfl, rfl⟩ := mem_lit.1 h1
    obtain ⟨e2, h2, hd⟩ := mem_seq.1 hd
    obtain ⟨e3, h3, rfl⟩ := mem_group.1 h2
    obtain ⟨v, u, rfl, hne, hv, rfl⟩ := mem_plus.1 h3
    obtain ⟨e4, h4, hd⟩ := mem_seq.1 hd
    obtain ⟨after, rfl, rfl⟩ := mem_lit.1 h4
    obtain ⟨ha, rfl⟩ := mem_look.1 hd
    refine ⟨v, after, rfl, hne, hv, ?_, by simp⟩
    cases after with
    | nil => exact .inl rfl
    | cons a as => exact .inr ⟨as, by simpa using ha⟩
  · rintro ⟨v, after, rfl, hne, hv, ha, rfl⟩
    refine ⟨_, mem_lit.2 ⟨_, rfl, rfl⟩, mem_seq.2 ⟨_, mem_group.2 ⟨_, mem_plus.2 ⟨v, q :: after, rfl, hne, hv, rfl⟩, rfl⟩,
      mem_seq.2 ⟨_, mem_lit.2 ⟨after, rfl, rfl⟩, mem_look.2 ⟨?_, by simp⟩⟩⟩⟩
    rcases ha with rfl | ⟨a, rfl⟩ <;> simp

/-- a declaration at the start of a text -/
def At0 (s v : List Char) (s1 s2 s3 after : List Char) (q : Char) : Prop :=
  s = s1 ++ ("__version__".toList ++ (s2 ++ ('=' :: (s3 ++ (q :: (v ++ (q :: after))))))) ∧
    (after = [] ∨ ∃ a, after = '\n' :: a) ∧ (q = '\'' ∨ q = '"') ∧ s1.all SciNotation.isSpace = true ∧ s2.all SciNotation.isSpace = true ∧
    s3.all SciNotation.isSpace = true ∧ v ≠ [] ∧ v.all inVersion = true

theorem mem_version {pv : Option Char} {s : List Char} {d : At} :
    d ∈ versionRe.run ⟨pv, s, []⟩ ↔ (pv = none ∨ pv = some '\n') ∧ ∃ v s1 s2 s3 after q, At0 s v s1 s2 s3 after q ∧ d = ⟨some q, after, [(2, v)]⟩ := by
  unfold versionRe
  rw [mem_seq]
  constructor
  · rintro ⟨e0, h0, hd⟩
    obtain ⟨hp, rfl⟩ := mem_look.1 h0
    obtain ⟨e1, h1, hd⟩ := mem_seq.1 hd
    obtain ⟨s1, u1, rfl, k1, rfl⟩ := mem_star.1 h1
    obtain ⟨e2, h2, hd⟩ := mem_seq.1 hd
    obtain ⟨u2, rfl, rfl⟩ := mem_text.1 h2
    obtain ⟨e3, h2, hd⟩ := mem_seq.1 hd
    obtain ⟨s2, u3, rfl, k2, rfl⟩ := mem_star.1 h2
    obtain ⟨e4, h3, hd⟩ := mem_seq.1 hd
    obtain ⟨u4, rfl, rfl⟩ := mem_lit.1 h3
    obtain ⟨e5, h3, hd⟩ := mem_seq.1 hd
    obtain ⟨s3, u5, rfl, k3, rfl⟩ := mem_star.1 h3
    refine ⟨by simpa using hp, ?_⟩
    rcases mem_alt.1 hd with hq | hq
    · obtain ⟨v, after, rfl, hne, hv, ha, rfl⟩ := mem_quoted.1 hq
      exact ⟨v, s1, s2, s3, after, '\'', ⟨rfl, ha, .inl rfl, k1, k2, k3, hne, hv⟩, rfl⟩
    · obtain ⟨v, after, rfl, hne, hv, ha, rfl⟩ := mem_quoted.1 hq
      exact ⟨v, s1, s2, s3, after, '"', ⟨rfl, ha, .inr rfl, k1, k2, k3, hne, hv⟩, rfl⟩
  · rintro ⟨hp, v, s1, s2, s3, after, q, ⟨rfl, ha, hq, h1, h2, h3, hne, hv⟩, rfl⟩
    refine ⟨_, mem_look.2 ⟨by simpa using hp, rfl⟩, mem_seq.2 ⟨_, mem_star.2 ⟨s1, _, rfl, h1, rfl⟩, mem_seq.2 ⟨_, mem_text.2 ⟨_, rfl, rfl⟩,
      mem_seq.2 ⟨_, mem_star.2 ⟨s2, _, rfl, h2, rfl⟩, mem_seq.2 ⟨_, mem_lit.2 ⟨_, rfl, rfl⟩, mem_seq.2 ⟨_, mem_star.2 ⟨s3, _, rfl, h3, rfl⟩, ?_⟩⟩⟩⟩⟩⟩
    rcases hq with rfl | rfl
    · exact mem_alt.2 (.inl (mem_quoted.2 ⟨v, after, rfl, hne, hv, ha, rfl⟩))
    · exact mem_alt.2 (.inr (mem_quoted.2 ⟨v, after, rfl, hne, hv, ha, rfl⟩))

/-- blanks before something else are cut off in one way -/
theorem space_cancel {p : Char → Bool} {s t u w : List Char} {x : Char} (hs : s.all p = true) (ht : t.all p = true) (hx : p x = false) {y : Char} (hy : p y = false)
    (e : s ++ x :: u = t ++ y :: w) : s = t ∧ x = y ∧ u = w := by
  have h1 := takeWhile_append (p := p) (u := x :: u) hs (fun a as h => by cases h; exact hx)
  have h2 := takeWhile_append (p := p) (u := y :: w) ht (fun a as h => by cases h; exact hy)
  rw [e] at h1
  have e1 : s = t := h1.1.symm.trans h2.1
  subst e1
  have := List.append_cancel_left e
  cases this
  exact ⟨rfl, rfl, rfl⟩

theorem At0_unique {s v s1 s2 s3 after v' s1' s2' s3' after' : List Char} {q q' : Char} (h : At0 s v s1 s2 s3 after q) (h' : At0 s v' s1' s2' s3' after' q') : v = v' := by
  obtain ⟨rfl, -, hq, h1, h2, h3, -, hv⟩ := h
  obtain ⟨e, -, hq', h1', h2', h3', -, hv'⟩ := h'
  have hu : SciNotation.isSpace '_' = false := by decide
  have he : SciNotation.isSpace '=' = false := by decide
  have hqs : ∀ q, (q = '\'' ∨ q = '"') → SciNotation.isSpace q = false ∧ inVersion q = false := by rintro q (rfl | rfl) <;> decide
  have ev : "__version__".toList = '_' :: "_version__".toList := by decide
  rw [ev] at e
  obtain ⟨rfl, -, e⟩ := space_cancel h1 h1' hu hu e
  have e := List.append_cancel_left e
  obtain ⟨rfl, -, e⟩ := space_cancel h2 h2' he he e
  obtain ⟨rfl, rfl, e⟩ := space_cancel h3 h3' (hqs q hq).1 (hqs q' hq').1 e
  exact (space_cancel hv hv' (hqs q hq).2 (hqs q hq).2 e).1

/-- the search finds the first place with a declaration -/
theorem search_spec (s : List Char) : ∀ pv : Option Char,
    (versionRe.search pv s = none ↔ ∀ b r, s = b ++ r → (last pv b = none ∨ last pv b = some '\n') → ∀ v s1 s2 s3 after q, ¬ At0 r v s1 s2 s3 after q) ∧
    (∀ m, versionRe.search pv s = some m → ∃ b r, s = b ++ r ∧ (last pv b = none ∨ last pv b = some '\n') ∧
      (∃ v s1 s2 s3 after q, At0 r v s1 s2 s3 after q ∧ m.2.get 2 = some v) ∧
      ∀ b' r', s = b' ++ r' → (last pv b' = none ∨ last pv b' = some '\n') → (∃ v s1 s2 s3 after q, At0 r' v s1 s2 s3 after q) → b.length ≤ b'.length) := by
  have here : ∀ pv r, (versionRe.here pv r = none ↔ ((pv = none ∨ pv = some '\n') → ∀ v s1 s2 s3 after q, ¬ At0 r v s1 s2 s3 after q)) ∧
      ∀ d, versionRe.here pv r = some d → (pv = none ∨ pv = some '\n') ∧ ∃ v s1 s2 s3 after q, At0 r v s1 s2 s3 after q ∧ d.get 2 = some v := by
    intro pv r
    unfold Re.here
    constructor
    · rw [List.head?_eq_none_iff, List.eq_nil_iff_forall_not_mem]
      constructor
      · intro h hp v s1 s2 s3 after q hA
        exact h _ (mem_version.2 ⟨hp, v, s1, s2, s3, after, q, hA, rfl⟩)
      · intro h d hd
        obtain ⟨hp, v, s1, s2, s3, after, q, hA, -⟩ := mem_version.1 hd
        exact h hp v s1 s2 s3 after q hA
    · intro d hd
      obtain ⟨hp, v, s1, s2, s3, after, q, hA, rfl⟩ := mem_version.1 (List.mem_of_head? hd)
      exact ⟨hp, v, s1, s2, s3, after, q, hA, by simp [At.get]⟩
  induction s with
  | nil =>
    intro pv
    simp only [Re.search, Option.map_eq_none_iff, Option.map_eq_some_iff]
    constructor
    · rw [(here pv []).1]
      constructor
      · intro h b r e
        obtain ⟨rfl, rfl⟩ := List.append_eq_nil_iff.1 e.symm
        exact h
      · intro h; exact h [] [] rfl
    · rintro m ⟨d, hd, rfl⟩
      obtain ⟨hp, hA⟩ := (here pv []).2 d hd
      exact ⟨[], [], rfl, hp, hA, fun _ _ _ _ _ => Nat.zero_le _⟩
  | cons x xs ih =>
    intro pv
    simp only [Re.search]
    cases hh : versionRe.here pv (x :: xs) with
    | some d =>
      obtain ⟨hp, hA⟩ := (here pv (x :: xs)).2 d hh
      simp only [reduceCtorEq, false_iff, Option.some.injEq]
      constructor
      · intro h
        obtain ⟨v, s1, s2, s3, after, q, hA, -⟩ := hA
        exact h [] (x :: xs) rfl hp v s1 s2 s3 after q hA
      · rintro m rfl
        exact ⟨[], x :: xs, rfl, hp, hA, fun _ _ _ _ _ => Nat.zero_le _⟩
    | none =>
      have hno := (here pv (x :: xs)).1.1 hh
      simp only
      obtain ⟨i1, i2⟩ := ih (some x)
      constructor
      · rw [i1]
        constructor
        · intro h b r e hb
          cases b with
          | nil => cases e; exact hno hb
          | cons y b =>
            simp only [List.cons_append, List.cons.injEq] at e
            obtain ⟨rfl, rfl⟩ := e
            exact h b r rfl hb
        · intro h b r e hb
          subst e
          exact h (x :: b) r rfl hb
      · intro m hm
        obtain ⟨b, r, rfl, hb, hA, hmin⟩ := i2 m hm
        refine ⟨x :: b, r, rfl, hb, hA, ?_⟩
        intro b' r' e hb' hA'
        cases b' with
        | nil =>
          simp only [List.nil_append] at e
          subst e
          obtain ⟨v, s1, s2, s3, after, q, hA'⟩ := hA'
          exact absurd hA' (hno hb' v s1 s2 s3 after q)
        | cons y b' =>
          simp only [List.cons_append, List.cons.injEq] at e
          obtain ⟨rfl, e⟩ := e
          have := hmin b' r' e hb' hA'
          simpa using this

theorem last_none_iff (b : List Char) : (last none b = none ∨ last none b = some '\n') ↔ (b = [] ∨ ∃ b', b = b' ++ ['\n']) := by
  rcases List.eq_nil_or_concat b with rfl | ⟨l, c, rfl⟩
  · simp [last]
  · rw [List.concat_eq_append]
    simp only [last_append, last, reduceCtorEq, Option.some.injEq, false_or, List.append_eq_nil_iff, List.cons_ne_nil, and_false]
    constructor
    · rintro rfl; exact ⟨l, rfl⟩
    · rintro ⟨l', e⟩
      have := (List.append_inj' e rfl).2
      simpa using this

theorem space_iff (c : Char) : SciNotation.isSpace c = true ↔ c ∈ " \t\n\r\x0b\x0c".toList := by
  have : " \t\n\r\x0b\x0c".toList = [' ', '\t', '\n', '\r', '\x0b', '\x0c'] := by decide
  rw [this]
  simp [SciNotation.isSpace, or_assoc]

theorem declares_iff (text b v : List Char) :
    Declares text b v ↔ ∃ r, text = b ++ r ∧ (last none b = none ∨ last none b = some '\n') ∧ ∃ s1 s2 s3 after q, At0 r v s1 s2 s3 after q := by
  have hin : ∀ c, inVersion c = true ↔ c.isAlphanum = true ∨ c = '_' ∨ c = '.' := by
    intro c; simp [inVersion, isWord, or_assoc]
  constructor
  · rintro ⟨s1, s2, s3, after, q, rfl, hb, ha, hq, hs, hne, hv⟩
    refine ⟨_, rfl, (last_none_iff b).2 hb, s1, s2, s3, after, q, rfl, ha, hq, ?_, ?_, ?_, hne, ?_⟩
    · exact List.all_eq_true.2 fun c hc => (space_iff c).2 (hs c (by simp [hc]))
    · exact List.all_eq_true.2 fun c hc => (space_iff c).2 (hs c (by simp [hc]))
    · exact List.all_eq_true.2 fun c hc => (space_iff c).2 (hs c (by simp [hc]))
    · exact List.all_eq_true.2 fun c hc => (hin c).2 (hv c hc)
  · rintro ⟨r, rfl, hb, s1, s2, s3, after, q, rfl, ha, hq, h1, h2, h3, hne, hv⟩
    refine ⟨s1, s2, s3, after, q, rfl, (last_none_iff b).1 hb, ha, hq, ?_, hne, fun c hc => (hin c).1 (List.all_eq_true.1 hv c hc)⟩
    intro c hc
    simp only [List.mem_append] at hc
    rcases hc with (hc | hc) | hc
    · exact (space_iff c).1 (List.all_eq_true.1 h1 c hc)
    · exact (space_iff c).1 (List.all_eq_true.1 h2 c hc)
    · exact (space_iff c).1 (List.all_eq_true.1 h3 c hc)

/-! ## The order of versions -/

theorem getD_reverse_strip (l : List Nat) (i : Nat) : (stripZeros l).getD i 0 = l.getD i 0 := by
  have key : ∀ r : List Nat, ∀ i, ((r.dropWhile (· == 0)).reverse).getD i 0 = r.reverse.getD i 0 := by
    intro r
    induction r with
    | nil => intro i; rfl
    | cons a r ih =>
      intro i
      simp only [List.dropWhile_cons]
      split
      · rename_i h
        have h : a = 0 := by simpa using h
        subst h
        rw [ih i, List.reverse_cons]
        simp only [List.getD_eq_getElem?_getD, List.getElem?_append]
        split
        · rfl
        · rename_i hi
          rw [List.getElem?_eq_none (by simpa using Nat.le_of_not_lt hi)]
          cases hj : i - r.reverse.length with
          | zero => rfl
          | succ j => rfl
      · rfl
  have := key l.reverse i
  simpa [stripZeros] using this

theorem strip_last (l : List Nat) : ∀ a, (stripZeros l).getLast? = some a → a ≠ 0 := by
  intro a h
  unfold stripZeros at h
  rw [List.getLast?_reverse] at h
  have := List.head?_dropWhile_not (fun x : Nat => x == 0) l.reverse
  rw [h] at this
  simpa using this

/-- lists without zeros at the end are determined by their numbers -/
theorem eq_of_getD (l m : List Nat) (hl : ∀ a, l.getLast? = some a → a ≠ 0) (hm : ∀ a, m.getLast? = some a → a ≠ 0) (h : ∀ i, l.getD i 0 = m.getD i 0) : l = m := by
  have len : ∀ l m : List Nat, (∀ a, l.getLast? = some a → a ≠ 0) → (∀ i, l.getD i 0 = m.getD i 0) → l.length ≤ m.length := by
    intro l m hl h
    cases hc : l.length with
    | zero => exact Nat.zero_le _
    | succ n =>
      have hlt : n < l.length := by omega
      have hx : l.getLast? = some l[n] := by
        rw [List.getLast?_eq_getElem?, hc]
        simp [hlt]
      have h2 := hl _ hx
      have h3 := h n
      apply Nat.lt_of_not_le
      intro hle
      rw [List.getD_eq_getElem?_getD, List.getD_eq_getElem?_getD, List.getElem?_eq_getElem hlt, List.getElem?_eq_none hle] at h3
      exact h2 (by simpa using h3)
  have hlen := Nat.le_antisymm (len l m hl h) (len m l hm (fun i => (h i).symm))
  apply List.ext_getElem hlen
  intro i h1 h2
  have := h i
  rw [List.getD_eq_getElem?_getD, List.getD_eq_getElem?_getD, List.getElem?_eq_getElem h1, List.getElem?_eq_getElem h2] at this
  simpa using this

theorem lastcons {a : Nat} {l : List Nat} (h : ∀ x, (a :: l).getLast? = some x → x ≠ 0) : ∀ x, l.getLast? = some x → x ≠ 0 := by
  intro x hx
  apply h
  cases l with
  | nil => cases hx
  | cons b l => simpa using hx

theorem nonzero_somewhere (l : List Nat) (hne : l ≠ []) (hl : ∀ a, l.getLast? = some a → a ≠ 0) : ∃ i, (∀ j < i, l.getD j 0 = 0) ∧ 0 < l.getD i 0 := by
  induction l with
  | nil => exact absurd rfl hne
  | cons a l ih =>
    by_cases ha : a = 0
    · cases l with
      | nil => exact absurd ha (hl a rfl)
      | cons b l =>
        obtain ⟨i, h1, h2⟩ := ih (by simp) (lastcons hl)
        refine ⟨i + 1, ?_, by simpa using h2⟩
        intro j hj
        cases j with
        | zero => simpa using ha
        | succ j => simpa using h1 j (by omega)
    · exact ⟨0, by simp, by simp; omega⟩

theorem ltTuple_iff (l m : List Nat) (hl : ∀ a, l.getLast? = some a → a ≠ 0) (hm : ∀ a, m.getLast? = some a → a ≠ 0) :
    ltTuple l m = true ↔ ∃ i, (∀ j < i, l.getD j 0 = m.getD j 0) ∧ l.getD i 0 < m.getD i 0 := by
  induction l generalizing m with
  | nil =>
    cases m with
    | nil => simp [ltTuple]
    | cons b m =>
      simp only [ltTuple, true_iff]
      obtain ⟨i, h1, h2⟩ := nonzero_somewhere (b :: m) (by simp) hm
      exact ⟨i, fun j hj => by rw [h1 j hj]; simp, by simpa using h2⟩
  | cons a l ih =>
    cases m with
    | nil =>
      simp only [ltTuple, Bool.false_eq_true, false_iff]
      rintro ⟨i, -, h⟩
      simp at h
    | cons b m =>
      simp only [ltTuple]
      split
      · rename_i hab
        subst hab
        rw [ih m (lastcons hl) (lastcons hm)]
        constructor
        · rintro ⟨i, h1, h2⟩
          refine ⟨i + 1, ?_, by simpa using h2⟩
          intro j hj
          cases j with
          | zero => simp
          | succ j => simpa using h1 j (by omega)
        · rintro ⟨i, h1, h2⟩
          cases i with
          | zero => simp at h2
          | succ i => exact ⟨i, fun j hj => by simpa using h1 (j + 1) (by omega), by simpa using h2⟩
      · rename_i hab
        simp only [decide_eq_true_eq]
        constructor
        · intro h; exact ⟨0, by simp, by simpa using h⟩
        · rintro ⟨i, h1, h2⟩
          cases i with
          | zero => simpa using h2
          | succ i => exact absurd (by simpa using h1 0 (by omega)) hab

theorem lt_iff {S : Type} (lt : S → S → Bool) (v w : Ver S) : v.lt lt w = true ↔ Before lt v w := by
  have hg := fun (u : Ver S) i => getD_reverse_strip u.release i
  have hs : stripZeros v.release = stripZeros w.release ↔ ∀ j, v.release.getD j 0 = w.release.getD j 0 := by
    constructor
    · intro h j; rw [← hg v, ← hg w, h]
    · intro h; exact eq_of_getD _ _ (strip_last _) (strip_last _) (fun i => by rw [hg v, hg w]; exact h i)
  have ht := ltTuple_iff (stripZeros v.release) (stripZeros w.release) (strip_last _) (strip_last _)
  simp only [hg v, hg w] at ht
  unfold Ver.lt Before
  split
  · rename_i h
    have h' := hs.1 h
    constructor
    · intro hl; exact .inr ⟨h', hl⟩
    · rintro (⟨i, -, hi⟩ | ⟨-, hl⟩)
      · rw [h' i] at hi; omega
      · exact hl
  · rename_i h
    rw [ht]
    constructor
    · intro hl; exact .inl hl
    · rintro (hl | ⟨h', -⟩)
      · exact hl
      · exact absurd (hs.2 h') h

theorem before_asymm {S : Type} {lt : S → S → Bool} (ho : Ordered lt) (v w : Ver S) (h : Before lt v w) : ¬ Before lt w v := by
  intro h'
  rcases h with ⟨i, h1, h2⟩ | ⟨h1, h2⟩ <;> rcases h' with ⟨j, h3, h4⟩ | ⟨h3, h4⟩
  · rcases Nat.lt_trichotomy i j with hij | rfl | hij
    · have := h3 i hij; omega
    · omega
    · have := h1 j hij; omega
  · have := h3 i; omega
  · have := h1 j; omega
  · rw [ho.asymm _ _ h2] at h4; cases h4

/-! ## C74 -/

/-- C74. The version that is read from a text is the one declared first in it, by a line of its own; a ValueError is raised if there is none, or if it is no version. -/
theorem C74_extract {S : Type} (parse : List Char → Option (Ver S)) (text : List Char) :
    ((∃ b v, Declares text b v) → ∃ b v, Declares text b v ∧ (∀ b' v', Declares text b' v' → b.length ≤ b'.length ∧ (b.length = b'.length → v' = v)) ∧
      extract parse text = (match parse v with | some x => .ok x | none => .error .valueError)) ∧
    ((¬ ∃ b v, Declares text b v) → extract parse text = .error .valueError) := by
  obtain ⟨h1, h2⟩ := search_spec text none
  cases hs : versionRe.search none text with
  | none =>
    have hn := h1.1 hs
    have hno : ¬ ∃ b v, Declares text b v := by
      rintro ⟨b, v, hd⟩
      obtain ⟨r, rfl, hb, s1, s2, s3, after, q, hA⟩ := (declares_iff text b v).1 hd
      exact hn b r rfl hb v s1 s2 s3 after q hA
    exact ⟨fun h => absurd h hno, fun _ => by simp [extract, versionText, hs]⟩
  | some m =>
    obtain ⟨b, r, e, hb, ⟨v, s1, s2, s3, after, q, hA, hm⟩, hmin⟩ := h2 m hs
    have hd : Declares text b v := (declares_iff text b v).2 ⟨r, e, hb, s1, s2, s3, after, q, hA⟩
    refine ⟨fun _ => ⟨b, v, hd, ?_, ?_⟩, fun h => absurd ⟨b, v, hd⟩ h⟩
    · intro b' v' hd'
      obtain ⟨r', e', hb', s1', s2', s3', after', q', hA'⟩ := (declares_iff text b' v').1 hd'
      refine ⟨hmin b' r' e' hb' ⟨v', s1', s2', s3', after', q', hA'⟩, ?_⟩
      intro hlen
      have : r' = r := (List.append_inj (e'.symm.trans e) hlen.symm).2
      subst this
      exact At0_unique hA' hA
    · simp only [extract, versionText, hs, Option.bind_some, hm]
      cases parse v <;> rfl

/-- C74. The check returns 0 exactly if the version has increased, 4 exactly if it is the same version (up to zeros at the end), and otherwise, the version having
decreased, the code of the first of the major, minor and patch numbers that differs - which has decreased - or 5 if none of them differs. -/
theorem C74_verdict {S : Type} (lt : S → S → Bool) (ho : Ordered lt) (new old : Ver S) :
    (verdict lt new old = 0 ↔ Before lt old new) ∧
    (verdict lt new old = 4 ↔ (∀ i, new.release.getD i 0 = old.release.getD i 0) ∧ new.suffix = old.suffix) ∧
    (verdict lt new old = 1 ↔ new.release.getD 0 0 < old.release.getD 0 0) ∧
    (verdict lt new old = 2 ↔ new.release.getD 0 0 = old.release.getD 0 0 ∧ new.release.getD 1 0 < old.release.getD 1 0) ∧
    (verdict lt new old = 3 ↔ new.release.getD 0 0 = old.release.getD 0 0 ∧ new.release.getD 1 0 = old.release.getD 1 0 ∧
      new.release.getD 2 0 < old.release.getD 2 0) ∧
    (verdict lt new old = 5 ↔ (∀ i < 3, new.release.getD i 0 = old.release.getD i 0) ∧ Before lt new old) := by
  have hle : ∀ v w : Ver S, Before lt v w → ∀ i, (∀ j < i, v.release.getD j 0 = w.release.getD j 0) → v.release.getD i 0 ≤ w.release.getD i 0 := by
    intro v w h i hi
    rcases h with ⟨k, h1, h2⟩ | ⟨h1, -⟩
    · rcases Nat.lt_trichotomy i k with hik | rfl | hik
      · exact Nat.le_of_eq (h1 i hik)
      · exact Nat.le_of_lt h2
      · have := hi k hik; omega
    · exact Nat.le_of_eq (h1 i)
  have hbef : ∀ v w : Ver S, ∀ i, (∀ j < i, v.release.getD j 0 = w.release.getD j 0) → v.release.getD i 0 < w.release.getD i 0 → Before lt v w :=
    fun v w i h1 h2 => .inl ⟨i, h1, h2⟩
  have tri : Before lt old new ∨ Before lt new old ∨ ((∀ i, new.release.getD i 0 = old.release.getD i 0) ∧ new.suffix = old.suffix) := by
    by_cases hex : ∃ i, new.release.getD i 0 ≠ old.release.getD i 0
    · have hmin : ∃ i, new.release.getD i 0 ≠ old.release.getD i 0 ∧ ∀ j < i, new.release.getD j 0 = old.release.getD j 0 := by
        obtain ⟨i, hi⟩ := hex
        induction i using Nat.strongRecOn with
        | _ i ih =>
          by_cases hj : ∃ j < i, new.release.getD j 0 ≠ old.release.getD j 0
          · obtain ⟨j, hji, hj⟩ := hj
            exact ih j hji hj
          · exact ⟨i, hi, fun j hji => Classical.byContradiction fun hne => hj ⟨j, hji, hne⟩⟩
      obtain ⟨i, hne, hi⟩ := hmin
      rcases Nat.lt_or_gt_of_ne hne with h | h
      · exact .inr (.inl (hbef _ _ i hi h))
      · exact .inl (hbef _ _ i (fun j hj => (hi j hj).symm) h)
    · have hall : ∀ i, new.release.getD i 0 = old.release.getD i 0 := fun i => Classical.byContradiction fun h => hex ⟨i, h⟩
      cases h1 : lt old.suffix new.suffix with
      | true => exact .inl (.inr ⟨fun j => (hall j).symm, h1⟩)
      | false =>
        cases h2 : lt new.suffix old.suffix with
        | true => exact .inr (.inl (.inr ⟨hall, h2⟩))
        | false => exact .inr (.inr ⟨hall, ho.total _ _ h2 h1⟩)
  have l0 : ∀ j, ¬ j < 0 := fun j => Nat.not_lt_zero j
  have c0 := fun (v w : Ver S) h => hle v w h 0 (fun j hj => absurd hj (l0 j))
  have c1 : ∀ v w : Ver S, Before lt v w → v.release.getD 0 0 = w.release.getD 0 0 → v.release.getD 1 0 ≤ w.release.getD 1 0 := by
    intro v w h e
    refine hle v w h 1 (fun j hj => ?_)
    have : j = 0 := by omega
    rw [this]; exact e
  have c2 : ∀ v w : Ver S, Before lt v w → v.release.getD 0 0 = w.release.getD 0 0 → v.release.getD 1 0 = w.release.getD 1 0 →
      v.release.getD 2 0 ≤ w.release.getD 2 0 := by
    intro v w h e e'
    refine hle v w h 2 (fun j hj => ?_)
    rcases (by omega : j = 0 ∨ j = 1) with rfl | rfl
    · exact e
    · exact e'
  have all3 : (∀ i < 3, new.release.getD i 0 = old.release.getD i 0) ↔
      new.release.getD 0 0 = old.release.getD 0 0 ∧ new.release.getD 1 0 = old.release.getD 1 0 ∧ new.release.getD 2 0 = old.release.getD 2 0 := by
    constructor
    · intro h; exact ⟨h 0 (by omega), h 1 (by omega), h 2 (by omega)⟩
    · rintro ⟨h0, h1, h2⟩ i hi
      rcases (by omega : i = 0 ∨ i = 1 ∨ i = 2) with rfl | rfl | rfl <;> assumption
  rw [all3]
  unfold verdict code Ver.number
  rcases tri with h | h | ⟨h, hsuf⟩
  · have hn := before_asymm ho _ _ h
    rw [if_pos ((lt_iff lt old new).2 h)]
    have a0 := c0 _ _ h
    have a1 := c1 _ _ h
    have a2 := c2 _ _ h
    refine ⟨⟨fun _ => h, fun _ => rfl⟩, ⟨by simp, ?_⟩, ⟨by simp, ?_⟩, ⟨by simp, ?_⟩, ⟨by simp, ?_⟩, ⟨by simp, fun hh => absurd hh.2 hn⟩⟩
    · rintro ⟨hall, hs⟩
      rcases h with ⟨i, -, hi⟩ | ⟨-, hl⟩
      · have := hall i; omega
      · rw [hs, ho.irrefl] at hl; cases hl
    · intro hh; omega
    · rintro ⟨e, hh⟩; have := a1 e.symm; omega
    · rintro ⟨e, e', hh⟩; have := a2 e.symm e'.symm; omega
  · have hn := before_asymm ho _ _ h
    have hno : ¬ (old.lt lt new = true) := fun hh => hn ((lt_iff lt old new).1 hh)
    rw [if_neg hno, if_pos ((lt_iff lt new old).2 h)]
    have a0 := c0 _ _ h
    have a1 := c1 _ _ h
    have a2 := c2 _ _ h
    have hneq : ¬ ((∀ i, new.release.getD i 0 = old.release.getD i 0) ∧ new.suffix = old.suffix) := by
      rintro ⟨hall, hs⟩
      rcases h with ⟨i, -, hi⟩ | ⟨-, hl⟩
      · have := hall i; omega
      · rw [hs, ho.irrefl] at hl; cases hl
    by_cases e0 : new.release.getD 0 0 = old.release.getD 0 0
    · have b1 := a1 e0
      by_cases e1 : new.release.getD 1 0 = old.release.getD 1 0
      · have b2 := a2 e0 e1
        by_cases e2 : new.release.getD 2 0 = old.release.getD 2 0
        · simp only [ne_eq, not_true_eq_false, not_false_eq_true, if_true, if_false, hn, hneq, h, true_and, and_true, iff_true, iff_false, Nat.lt_irrefl, and_false, false_and, e0, e1, e2]
          decide
        · have : new.release.getD 2 0 < old.release.getD 2 0 := by omega
          simp only [ne_eq, not_true_eq_false, not_false_eq_true, if_true, if_false, hn, hneq, h, true_and, and_true, iff_true, iff_false, Nat.lt_irrefl, and_false, false_and, e0, e1, e2, this]
          decide
      · have : new.release.getD 1 0 < old.release.getD 1 0 := by omega
        simp only [ne_eq, not_true_eq_false, not_false_eq_true, if_true, if_false, hn, hneq, h, true_and, and_true, iff_true, iff_false, Nat.lt_irrefl, and_false, false_and, e0, e1, this]
        decide
    · have : new.release.getD 0 0 < old.release.getD 0 0 := by omega
      simp only [ne_eq, not_true_eq_false, not_false_eq_true, if_true, if_false, hn, hneq, h, true_and, and_true, iff_true, iff_false, Nat.lt_irrefl, and_false, false_and, e0, this]
      decide
  · have h1 : ¬ Before lt old new := by
      rintro (⟨i, -, hi⟩ | ⟨-, hl⟩)
      · have := h i; omega
      · rw [hsuf, ho.irrefl] at hl; cases hl
    have h2 : ¬ Before lt new old := by
      rintro (⟨i, -, hi⟩ | ⟨-, hl⟩)
      · have := h i; omega
      · rw [hsuf, ho.irrefl] at hl; cases hl
    rw [if_neg (fun hh => h1 ((lt_iff lt old new).1 hh)), if_neg (fun hh => h2 ((lt_iff lt new old).1 hh))]
    simp only [h1, h2, h, hsuf, iff_false, iff_true, and_false, Nat.lt_irrefl]
    simp

/-- C74. The process ends with status 0 exactly if both files declare a version and the version has increased. -/
theorem C74_status {S : Type} (parse : List Char → Option (Ver S)) (lt : S → S → Bool) (ho : Ordered lt) (new old : List Char) :
    status parse lt new old = 0 ↔ ∃ n o, extract parse new = .ok n ∧ extract parse old = .ok o ∧ Before lt o n := by
  unfold status main
  cases hn : extract parse new with
  | error e => simp
  | ok n =>
    cases hold : extract parse old with
    | error e => simp
    | ok o => simp [(C74_verdict lt ho n o).1]

/-- C74. The other statuses do not tell what happened: 1 means that the major version has decreased, and also that no version was found. -/
theorem C74_status_counterexample :
    ∃ (parse : List Char → Option (Ver Nat)) (new new' old : List Char),
      status parse (fun a b => decide (a < b)) new old = status parse (fun a b => decide (a < b)) new' old ∧
      extract parse new = .error .valueError ∧ extract parse new' = .ok ⟨[1], 0⟩ ∧ extract parse old = .ok ⟨[2], 0⟩ :=
  ⟨fun t => if t = ['1'] then some ⟨[1], 0⟩ else if t = ['2'] then some ⟨[2], 0⟩ else none,
    [], "__version__ = '1'".toList, "__version__ = \"2\"".toList, by decide +kernel, by decide +kernel, by decide +kernel, by decide +kernel⟩

/-! ## Non-vacuity -/

example : Ordered (fun a b : Nat => decide (a < b)) :=
  ⟨by simp, by simp; omega, by simp; omega⟩

/-- the version file of the repository (gemd/__version__.py:1) -/
example : Declares "__version__ = \"2.1.10\"\n".toList [] "2.1.10".toList :=
  ⟨[], [' '], [' '], ['\n'], '"', by decide +kernel, .inl rfl, .inr ⟨[], rfl⟩, .inr rfl, by decide +kernel, by decide +kernel, by decide +kernel⟩

example : versionText "\"\"\"doc\"\"\"\n\n  __version__ = '2.1.10'\n__version__ = \"3\"".toList = some "2.1.10".toList := by decide +kernel
example : versionText "x = 1; __version__ = '2.1.10'".toList = none := by decide +kernel
example : verdict (fun a b : Nat => decide (a < b)) ⟨[2, 1, 10], 0⟩ ⟨[2, 1, 9], 0⟩ = 0 := by decide +kernel
example : verdict (fun a b : Nat => decide (a < b)) ⟨[2, 1], 0⟩ ⟨[2, 1, 0], 0⟩ = 4 := by decide +kernel
example : verdict (fun a b : Nat => decide (a < b)) ⟨[2, 1, 0, 3], 0⟩ ⟨[2, 1, 0, 4], 0⟩ = 5 := by decide +kernel

end Verif.Version
