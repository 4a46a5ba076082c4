import Verif.Model.Ingest
/-!
# C77: ingesting material runs and tables
-/

set_option linter.unusedSimpArgs false
set_option linter.unusedVariables false

namespace Verif.Ingest
open Verif.Py Verif.Heap

/-! ## The specification -/

/-- a text and its words: `w`, `t` and so on, words being separated by whitespace -/
inductive Splits (space : Char → Bool) : List Char → List (List Char) → Prop
  | nil {w : List Char} (hw : ∀ c ∈ w, space c = true) : Splits space w []
  | last {w t : List Char} (hw : ∀ c ∈ w, space c = true) (ht : ∀ c ∈ t, space c = false) (hne : t ≠ []) : Splits space (w ++ t) [t]
  | cons {w t : List Char} {c : Char} {r : List Char} {ts : List (List Char)} (hw : ∀ c ∈ w, space c = true) (ht : ∀ c ∈ t, space c = false) (hne : t ≠ [])
      (hc : space c = true) (h : Splits space (c :: r) ts) : Splits space (w ++ (t ++ (c :: r))) (t :: ts)

/-- the unit a word means; none if it is not known -/
def UnitOf (env : Env) (t u : List Char) : Prop := env.parse t = .ok u ∨ ((env.parse t = .error .valueError ∨ env.parse t = .error .undefinedUnit) ∧ u = [])

/-- the words for "plus or minus" -/
def plusMinus (w : List Char) : Prop := w = "+-".toList ∨ w = "+/-".toList

/-- What a text means: a number and a unit, with a deviation or not; a number alone; or a category. The unit is the last word, a negative deviation is dropped. -/
inductive TextMeans (env : Env) (s : List Char) : Val → Prop
  | normal {t w d : List Char} {rest : List (List Char)} {m x : Rat} {u : List Char} (hs : Splits env.space s (t :: w :: d :: rest)) (hw : plusMinus w) (hm : env.read t = some m)
      (hd : env.read d = some x) (hu : UnitOf env ((d :: rest).getLast (by simp)) u) (hx : 0 ≤ x) : TextMeans env s (.normal m x u)
  | negative {t w d : List Char} {rest : List (List Char)} {m x : Rat} {u : List Char} (hs : Splits env.space s (t :: w :: d :: rest)) (hw : plusMinus w) (hm : env.read t = some m)
      (hd : env.read d = some x) (hu : UnitOf env ((d :: rest).getLast (by simp)) u) (hx : x < 0) : TextMeans env s (.nominal m u)
  | nominal {t w : List Char} {rest : List (List Char)} {m : Rat} {u : List Char} (hs : Splits env.space s (t :: w :: rest)) (hw : ¬ plusMinus w) (hm : env.read t = some m)
      (hu : UnitOf env ((w :: rest).getLast (by simp)) u) : TextMeans env s (.nominal m u)
  | number {ts : List (List Char)} {m : Rat} (hs : Splits env.space s ts) (hl : ts.length ≤ 1) (hm : env.read s = some m) : TextMeans env s (.nominal m [])
  | category {ts : List (List Char)} (hs : Splits env.space s ts) (hl : ts.length ≤ 1) (hm : env.read s = none) : TextMeans env s (.category s)

/-- what a piece of data means; lists, dictionaries and None mean nothing -/
def Means (env : Env) : Raw → Val → Prop
  | .num x, v => v = .nominal x []
  | .str s, v => TextMeans env s v
  | _, _ => False

/-- Assumed of what is not in the repository: the empty unit is one, a unit as it is written by `parse_units` is read as itself; iterating a set gives its members, each once. -/
structure Sane (env : Env) : Prop where
  empty : env.parse [] = .ok []
  again : ∀ t u, env.parse t = .ok u → env.parse u = .ok u
  order : ∀ l, (env.order l).Perm l

/-! ## Words -/

theorem takeWhile_all {p : Char → Bool} {t r : List Char} (ht : ∀ c ∈ t, p c = true) (hr : ∀ c, r.head? = some c → p c = false) : (t ++ r).takeWhile p = t ∧ (t ++ r).dropWhile p = r := by
  induction t with
  | nil => cases r with
    | nil => exact ⟨rfl, rfl⟩
    | cons c r => have := hr c rfl; simp [List.takeWhile_cons, List.dropWhile_cons, this]
  | cons c t ih =>
    have h1 := ht c (List.mem_cons_self ..)
    have := ih (fun x hx => ht x (List.mem_cons_of_mem _ hx))
    simp [List.takeWhile_cons, List.dropWhile_cons, h1, this]

theorem split_eq (space : Char → Bool) (s : List Char) : split space s = match s.dropWhile space with
    | [] => []
    | c :: cs => (c :: cs.takeWhile (fun x => ! space x)) :: split space (cs.dropWhile (fun x => ! space x)) := by
  rw [split]
  split
  · rename_i h; rw [h]
  · rename_i h; rw [h]

theorem split_word {space : Char → Bool} {w t r : List Char} (hw : ∀ c ∈ w, space c = true) (ht : ∀ c ∈ t, space c = false) (hne : t ≠ []) (hr : ∀ c, r.head? = some c → space c = true) :
    split space (w ++ (t ++ r)) = t :: split space r := by
  cases t with
  | nil => exact absurd rfl hne
  | cons c t =>
    rw [split_eq, (takeWhile_all (p := space) (t := w) (r := (c :: t) ++ r) hw (by intro x hx; simp at hx; subst hx; exact ht _ (List.mem_cons_self ..))).2]
    have := takeWhile_all (p := fun x => ! space x) (t := t) (r := r) (fun x hx => by simp [ht x (List.mem_cons_of_mem _ hx)]) (fun x hx => by simp [hr x hx])
    simp only [List.cons_append, this.1, this.2]

theorem split_splits {space : Char → Bool} {s : List Char} {ts : List (List Char)} (h : Splits space s ts) : split space s = ts := by
  induction h with
  | nil hw =>
    rename_i w
    have := (takeWhile_all (p := space) (t := w) (r := []) hw (by simp)).2
    rw [List.append_nil] at this
    rw [split_eq, this]
  | last hw ht hne =>
    rename_i w t
    have := split_word (r := []) hw ht hne (by simp)
    rw [List.append_nil] at this
    rw [this, split_eq]
    rfl
  | cons hw ht hne hc h ih =>
    rw [split_word hw ht hne (by intro x hx; simp at hx; subst hx; exact hc), ih]

theorem mem_takeWhile {p : Char → Bool} {l : List Char} {c : Char} (h : c ∈ l.takeWhile p) : p c = true := by
  induction l with
  | nil => simp at h
  | cons x l ih =>
    rw [List.takeWhile_cons] at h
    split at h
    · rcases List.mem_cons.1 h with rfl | h
      · assumption
      · exact ih h
    · simp at h

theorem dropWhile_head {p : Char → Bool} {l : List Char} {c : Char} {r : List Char} (h : l.dropWhile p = c :: r) : p c = false := by
  induction l with
  | nil => simp at h
  | cons x l ih =>
    rw [List.dropWhile_cons] at h
    split at h
    · exact ih h
    · rename_i hx
      simp only [List.cons.injEq] at h
      rw [← h.1]; simpa using hx

theorem splits_split (space : Char → Bool) (s : List Char) : Splits space s (split space s) := by
  generalize hn : s.length = n
  induction n using Nat.strongRecOn generalizing s with
  | _ n ih =>
    rw [split_eq]
    have hs := List.takeWhile_append_dropWhile (p := space) (l := s)
    have hw : ∀ c ∈ s.takeWhile space, space c = true := fun c hc => mem_takeWhile hc
    cases hd : s.dropWhile space with
    | nil => rw [hd, List.append_nil] at hs; rw [← hs]; exact .nil (by rw [hs]; rw [← hs]; exact hw)
    | cons c cs =>
      rw [hd] at hs
      have hc := dropWhile_head hd
      have hcs := List.takeWhile_append_dropWhile (p := fun x => ! space x) (l := cs)
      have ht : ∀ x ∈ c :: cs.takeWhile (fun x => ! space x), space x = false := by
        intro x hx
        rcases List.mem_cons.1 hx with rfl | hx
        · exact hc
        · have := mem_takeWhile hx; simpa using this
      simp only
      cases hr : cs.dropWhile (fun x => ! space x) with
      | nil =>
        rw [hr, List.append_nil] at hcs
        rw [hcs] at ht ⊢
        rw [split_eq, List.dropWhile_nil]
        conv => arg 2; rw [← hs]
        exact .last hw ht (by simp)
      | cons x r =>
        rw [hr] at hcs
        have hx := dropWhile_head hr
        have hl : (x :: r).length < n := by
          have h1 := congrArg List.length hs
          have h2 := congrArg List.length hcs
          simp only [List.length_append, List.length_cons] at h1 h2 ⊢
          omega
        have := ih _ hl (x :: r) rfl
        have key := Splits.cons (c := x) hw ht (by simp) (by simpa using hx) this
        have e : s.takeWhile space ++ ((c :: cs.takeWhile (fun x => ! space x)) ++ x :: r) = s := by
          rw [List.cons_append, hcs, hs]
        rwa [e] at key

/-- the words of a text are what `split` gives -/
theorem splits_iff (space : Char → Bool) (s : List Char) (ts : List (List Char)) : Splits space s ts ↔ split space s = ts :=
  ⟨split_splits, fun h => h ▸ splits_split space s⟩

/-! ## Values -/

theorem unit_iff (env : Env) (t u : List Char) : unit env t = .ok u ↔ UnitOf env t u := by
  unfold unit UnitOf
  split
  · rename_i h; simp [h, eq_comm]
  · rename_i h; simp [h, eq_comm]
  · rename_i h1 h2
    constructor
    · exact .inl
    · rintro (h | ⟨h | h, _⟩)
      · exact h
      · exact absurd h h1
      · exact absurd h h2

theorem unit_again {env : Env} (hs : Sane env) {t u : List Char} (h : UnitOf env t u) : env.parse u = .ok u := by
  rcases h with h | ⟨_, rfl⟩
  · exact hs.again _ _ h
  · exact hs.empty

theorem words_means {env : Env} (hs : Sane env) (t w : List Char) (rest : List (List Char)) (v : Val) : parseWords env (t :: w :: rest) = .ok v ↔
    ∃ m u, env.read t = some m ∧ UnitOf env ((w :: rest).getLast (by simp)) u ∧
      ((plusMinus w ∧ ∃ d r x, rest = d :: r ∧ env.read d = some x ∧ v = if 0 ≤ x then .normal m x u else .nominal m u) ∨ (¬ plusMinus w ∧ v = .nominal m u)) := by
  have hlast : (t :: w :: rest).getLastD [] = (w :: rest).getLast (by simp) := by
    rw [List.getLastD_cons, List.getLast_eq_getLastD, List.getLastD_cons]
  have hpm : (w = ['+', '-'] ∨ w = ['+', '/', '-']) ↔ plusMinus w := Iff.rfl
  unfold parseWords deviation float nominal normal
  rw [hlast]
  simp only [List.getElem?_cons_zero, List.getElem?_cons_succ]
  cases hm : env.read t with
  | none => simp
  | some m =>
    simp only [Option.some.injEq]
    by_cases hw : plusMinus w
    · rw [if_pos (hpm.2 hw)]
      cases rest with
      | nil => simp [hw]
      | cons d r =>
        simp only [List.getElem?_cons_zero]
        cases hd : env.read d with
        | none =>
          simp only [reduceCtorEq, false_iff]
          rintro ⟨_, _, _, _, ⟨_, d', r', x, h1, h2, _⟩ | ⟨h, _⟩⟩
          · simp only [List.cons.injEq] at h1
            rw [← h1.1, hd] at h2; cases h2
          · exact h hw
        | some x =>
          simp only
          generalize (w :: d :: r).getLast (by simp) = last
          cases hu : unit env last with
          | error e =>
            simp only [reduceCtorEq, false_iff]
            rintro ⟨_, u, _, h, _⟩
            rw [(unit_iff env _ _).2 h] at hu; cases hu
          | ok u =>
            have hu' := (unit_iff env _ _).1 hu
            simp only [unit_again hs hu']
            constructor
            · intro h
              refine ⟨m, u, rfl, hu', .inl ⟨hw, d, r, x, rfl, hd, ?_⟩⟩
              split at h <;> rename_i hx <;> simp only [Except.ok.injEq] at h <;> simp [hx, h.symm]
            · rintro ⟨m', u', rfl, h1, ⟨_, d', r', x', h2, h3, rfl⟩ | ⟨h, _⟩⟩
              · simp only [List.cons.injEq] at h2
                obtain ⟨rfl, rfl⟩ := h2
                rw [hd] at h3; cases h3
                rw [(unit_iff env _ _).2 h1] at hu; cases hu
                split <;> rfl
              · exact absurd hw h
    · rw [if_neg (fun h => hw (hpm.1 h))]
      simp only
      generalize (w :: rest).getLast (by simp) = last
      cases hu : unit env last with
      | error e =>
        simp only [reduceCtorEq, false_iff]
        rintro ⟨_, u, _, h, _⟩
        rw [(unit_iff env _ _).2 h] at hu; cases hu
      | ok u =>
        have hu' := (unit_iff env _ _).1 hu
        have : ¬ (0 : Rat) ≤ -1 := by decide +kernel
        simp only [if_neg this, unit_again hs hu']
        constructor
        · intro h
          simp only [Except.ok.injEq] at h
          exact ⟨m, u, rfl, hu', .inr ⟨hw, h.symm⟩⟩
        · rintro ⟨m', u', rfl, h1, ⟨h, _⟩ | ⟨_, rfl⟩⟩
          · exact absurd h hw
          · rw [(unit_iff env _ _).2 h1] at hu; cases hu
            rfl

/-- C77: what is made of a piece of data is what it means. -/
theorem C77_value {env : Env} (hs : Sane env) (r : Raw) (v : Val) : parseValue env r = .ok v ↔ Means env r v := by
  cases r with
  | none => simp [parseValue, Means]
  | list l => simp [parseValue, Means]
  | dict d => simp [parseValue, Means]
  | num x => simp [parseValue, Means, nominal, hs.empty, eq_comm]
  | str s =>
    simp only [parseValue, Means]
    by_cases hl : (split env.space s).length > 1
    · rw [if_pos hl]
      obtain ⟨t, w, rest, he⟩ : ∃ t w rest, split env.space s = t :: w :: rest := by
        match split env.space s, hl with
        | t :: w :: rest, _ => exact ⟨t, w, rest, rfl⟩
      have hsp := (splits_iff env.space s _).2 he
      rw [he, words_means hs]
      constructor
      · rintro ⟨m, u, hm, hu, ⟨hw, d, r, x, rfl, hd, rfl⟩ | ⟨hw, rfl⟩⟩
        · have hu' : UnitOf env ((d :: r).getLast (by simp)) u := by rwa [List.getLast_cons (by simp)] at hu
          split
          · rename_i hx; exact .normal hsp hw hm hd hu' hx
          · rename_i hx; exact .negative hsp hw hm hd hu' (Rat.not_le.1 hx)
        · exact .nominal hsp hw hm hu
      · intro h
        cases h with
        | normal hs' hw hm hd hu hx =>
          rw [splits_iff, he] at hs'
          simp only [List.cons.injEq] at hs'
          obtain ⟨rfl, rfl, rfl⟩ := hs'
          exact ⟨_, _, hm, by rwa [List.getLast_cons (by simp)], .inl ⟨hw, _, _, _, rfl, hd, by rw [if_pos hx]⟩⟩
        | negative hs' hw hm hd hu hx =>
          rw [splits_iff, he] at hs'
          simp only [List.cons.injEq] at hs'
          obtain ⟨rfl, rfl, rfl⟩ := hs'
          exact ⟨_, _, hm, by rwa [List.getLast_cons (by simp)], .inl ⟨hw, _, _, _, rfl, hd, by rw [if_neg (Rat.not_le.2 hx)]⟩⟩
        | nominal hs' hw hm hu =>
          rw [splits_iff, he] at hs'
          simp only [List.cons.injEq] at hs'
          obtain ⟨rfl, rfl, rfl⟩ := hs'
          exact ⟨_, _, hm, hu, .inr ⟨hw, rfl⟩⟩
        | number hs' hl' _ => rw [splits_iff] at hs'; rw [hs'] at hl; omega
        | category hs' hl' _ => rw [splits_iff] at hs'; rw [hs'] at hl; omega
    · rw [if_neg hl]
      have hsp := (splits_iff env.space s _).2 rfl
      have short : ∀ t w rest, ¬ Splits env.space s (t :: w :: rest) := by
        intro t w rest h
        rw [splits_iff] at h
        rw [h] at hl
        simp at hl
      cases hm : env.read s with
      | some x =>
        simp only [nominal, hs.empty, Except.ok.injEq]
        constructor
        · rintro rfl; exact .number hsp (by omega) hm
        · intro h
          cases h with
          | normal h | negative h | nominal h => exact absurd h (short _ _ _)
          | number _ _ h => rw [hm] at h; cases h; rfl
          | category _ _ h => rw [hm] at h; cases h
      | none =>
        simp only [Except.ok.injEq]
        constructor
        · rintro rfl; exact .category hsp (by omega) hm
        · intro h
          cases h with
          | normal h | negative h | nominal h => exact absurd h (short _ _ _)
          | number _ _ h => rw [hm] at h; cases h
          | category _ _ h => rfl


/-! ## Runs -/

/-- an id is set if there is one that counts as true -/
def IdOf (d : List (String × Raw)) (key scope : String) (uids : List (String × Raw)) : Prop :=
  (∃ x, Dict.get? d key = some x ∧ x.truthy = true ∧ uids = [(scope, x)]) ∨ ((∀ x, Dict.get? d key = some x → x.truthy = false) ∧ uids = [])

/-- a text is one tag, a list of texts is a list of tags, a dictionary its keys; what counts as false is no tag -/
def TagsOf (d : List (String × Raw)) (tags : List (List Char)) : Prop := match Dict.get? d "tags" with
  | none => tags = []
  | some .none => tags = []
  | some (.num x) => x = 0 ∧ tags = []
  | some (.str s) => if s = [] then tags = [] else tags = [s]
  | some (.list l) => l = tags.map .str
  | some (.dict e) => tags = e.map (fun p => p.1.toList)

/-- the attributes are those of the data that are known, each once, and hold what the data mean -/
def AttrsOf (env : Env) (known : List String) (d : List (String × Raw)) (l : List (String × Val)) : Prop :=
  (l.map Prod.fst).Nodup ∧ (∀ n v, (n, v) ∈ l → n ∈ known ∧ ∃ r, Dict.get? d n = some r ∧ Means env r v) ∧ ∀ n ∈ known, ∀ r, Dict.get? d n = some r → ∃ v, (n, v) ∈ l

/-- the record of a measurement -/
structure MeasurementOf (env : Env) (d : List (String × Raw)) (r : Rec) : Prop where
  uids : IdOf d "scan_id" "given_scan_id" r.uids
  tags : TagsOf d r.tags
  properties : AttrsOf env ["density", "kinematic viscosity"] d r.properties
  conditions : AttrsOf env ["temperature"] d r.conditions
  parameters : AttrsOf env ["knob_2_setting"] d r.parameters

/-- the experiments: a list of dictionaries; an empty text or dictionary is as good as an empty list -/
def ExperimentsOf (d : List (String × Raw)) (es : List (List (String × Raw))) : Prop := match Dict.get? d "experiments" with
  | none => es = []
  | some (.list l) => l = es.map .dict
  | some (.str s) => s = [] ∧ es = []
  | some (.dict e) => e = [] ∧ es = []
  | some _ => False

/-- what is stored of a reference -/
def refOf {L : Type} : Arg L → Ref L
  | .link l => .link l
  | .obj o => .obj o
  | _ => .none

/-- The run `o` is that of the data: it has no spec; a measurement for each experiment, in their order, numbered on from it, that has it as its material. -/
structure RunOf {L : Type} (env : Env) (process : Arg L) (d : List (String × Raw)) (es : List (List (String × Raw))) (st : St L) (o : Nat) : Prop where
  experiments : ExperimentsOf d es
  obj : st.heap.obj o = { cls := .materialRun, name := some "Material Run", spec := .none, process := refOf process, children := (List.range es.length).map (fun k => o + 1 + k) }
  uids : IdOf d "sample_id" "given_sample_id" (st.data o).uids
  tags : TagsOf d (st.data o).tags
  bare : (st.data o).properties = [] ∧ (st.data o).conditions = [] ∧ (st.data o).parameters = []
  measurement : ∀ (k : Nat) e, es[k]? = some e → st.heap.obj (o + 1 + k) = { cls := .measurementRun, name := some "Measurement Run", spec := .none, owner := .obj o } ∧
    MeasurementOf env e (st.data (o + 1 + k))
  room : o + es.length < st.heap.next

/-! ### Records -/

theorem ids_spec (d : List (String × Raw)) (key scope : String) : IdOf d key scope (ids d key scope) := by
  unfold ids IdOf
  cases h : Dict.get? d key with
  | none => exact .inr ⟨fun x hx => (nomatch hx), rfl⟩
  | some x =>
    by_cases ht : x.truthy = true
    · exact .inl ⟨x, rfl, ht, by simp [ht]⟩
    · exact .inr ⟨fun y hy => by cases hy; simpa using ht, by simp [ht]⟩

theorem texts_iff (l : List Raw) (ts : List (List Char)) : texts l = .ok ts ↔ l = ts.map .str := by
  induction l generalizing ts with
  | nil => cases ts <;> simp [texts]
  | cons r l ih =>
    cases r with
    | str s =>
      simp only [texts]
      cases h : texts l with
      | error e =>
        simp only [reduceCtorEq, false_iff]
        intro h1
        cases ts with
        | nil => simp at h1
        | cons t ts =>
          simp only [List.map_cons, List.cons.injEq, Raw.str.injEq] at h1
          rw [(ih ts).2 h1.2] at h; cases h
      | ok r =>
        have hr := (ih r).1 h
        simp only [Except.ok.injEq]
        constructor
        · rintro rfl; simp [hr]
        · intro h1
          cases ts with
          | nil => simp at h1
          | cons t ts =>
            simp only [List.map_cons, List.cons.injEq, Raw.str.injEq] at h1
            have := (ih ts).2 h1.2
            rw [h] at this; cases this
            rw [h1.1]
    | none | num x | list x | dict x => cases ts <;> simp [texts]

theorem tags_iff (d : List (String × Raw)) (ts : List (List Char)) : tagsOf d = .ok ts ↔ TagsOf d ts := by
  unfold tagsOf TagsOf
  cases h : Dict.get? d "tags" with
  | none => simp [eq_comm]
  | some r => cases r with
    | none => simp [Raw.truthy, eq_comm]
    | num x => by_cases hx : x = 0 <;> simp [Raw.truthy, asTags, hx, eq_comm]
    | str s => cases s <;> simp [Raw.truthy, asTags, eq_comm]
    | list l =>
      cases l with
      | nil => cases ts <;> simp [Raw.truthy]
      | cons r l => simp only [Raw.truthy, asTags, List.isEmpty_cons, Bool.not_false, if_true]; exact texts_iff _ _
    | dict e => cases e <;> simp [Raw.truthy, asTags, eq_comm]

theorem attrs_keys {env : Env} {d : List (String × Raw)} : ∀ {ns : List String} {l : List (String × Val)}, attrs env d ns = .ok l → l.map Prod.fst = ns
  | [], l, h => by simp only [attrs, Except.ok.injEq] at h; subst h; rfl
  | n :: ns, l, h => by
    simp only [attrs] at h
    split at h
    · cases h
    · split at h
      · cases h
      · split at h
        · cases h
        · rename_i hl
          simp only [Except.ok.injEq] at h
          subst h
          simp [attrs_keys hl]

theorem attrs_mem {env : Env} {d : List (String × Raw)} : ∀ {ns : List String} {l : List (String × Val)}, attrs env d ns = .ok l → ∀ n v, (n, v) ∈ l → ∃ r, Dict.get? d n = some r ∧ parseValue env r = .ok v
  | [], l, h, n, v, hm => by simp only [attrs, Except.ok.injEq] at h; subst h; simp at hm
  | n :: ns, l, h, n', v', hm => by
    simp only [attrs] at h
    split at h
    · cases h
    · rename_i r hr
      split at h
      · cases h
      · rename_i v hv
        split at h
        · cases h
        · rename_i l' hl
          simp only [Except.ok.injEq] at h
          subst h
          rcases List.mem_cons.1 hm with h1 | h1
          · simp only [Prod.mk.injEq] at h1
            obtain ⟨rfl, rfl⟩ := h1
            exact ⟨r, hr, hv⟩
          · exact attrs_mem hl _ _ h1

theorem attrs_ok {env : Env} {d : List (String × Raw)} : ∀ {ns : List String}, (∀ n ∈ ns, ∃ r v, Dict.get? d n = some r ∧ parseValue env r = .ok v) → ∃ l, attrs env d ns = .ok l
  | [], _ => ⟨[], rfl⟩
  | n :: ns, h => by
    obtain ⟨r, v, hr, hv⟩ := h n (List.mem_cons_self ..)
    obtain ⟨l, hl⟩ := attrs_ok (fun m hm => h m (List.mem_cons_of_mem _ hm))
    exact ⟨(n, v) :: l, by simp only [attrs, hr, hv, hl]⟩

theorem mem_common {env : Env} (hs : Sane env) {known : List String} {d : List (String × Raw)} {n : String} : n ∈ common env known d ↔ n ∈ known ∧ ∃ r, Dict.get? d n = some r := by
  unfold common
  rw [(hs.order _).mem_iff, List.mem_filter]
  simp [Dict.has, Option.isSome_iff_exists]

theorem common_attrs {env : Env} (hs : Sane env) {known : List String} (hk : known.Nodup) {d : List (String × Raw)} {l : List (String × Val)}
    (h : attrs env d (common env known d) = .ok l) : AttrsOf env known d l := by
  have hkeys := attrs_keys h
  refine ⟨?_, fun n v hm => ?_, fun n hn r hr => ?_⟩
  · rw [hkeys]
    exact (hs.order _).nodup_iff.2 (hk.filter _)
  · obtain ⟨r, hr, hv⟩ := attrs_mem h n v hm
    have : n ∈ l.map Prod.fst := List.mem_map.2 ⟨_, hm, rfl⟩
    rw [hkeys, mem_common hs] at this
    exact ⟨this.1, r, hr, (C77_value hs r v).1 hv⟩
  · have : n ∈ l.map Prod.fst := by rw [hkeys, mem_common hs]; exact ⟨hn, r, hr⟩
    obtain ⟨⟨n', v⟩, hm, rfl⟩ := List.mem_map.1 this
    exact ⟨v, hm⟩

/-- the values of the known names can be read -/
def Readable (env : Env) (known : List String) (d : List (String × Raw)) : Prop := ∀ n ∈ known, ∀ r, Dict.get? d n = some r → ∃ v, Means env r v

theorem attrs_accepts {env : Env} (hs : Sane env) {known : List String} {d : List (String × Raw)} : (∃ l, attrs env d (common env known d) = .ok l) ↔ Readable env known d := by
  constructor
  · rintro ⟨l, h⟩ n hn r hr
    have hkeys := attrs_keys h
    have : n ∈ l.map Prod.fst := by rw [hkeys, mem_common hs]; exact ⟨hn, r, hr⟩
    obtain ⟨⟨n', v⟩, hm, rfl⟩ := List.mem_map.1 this
    obtain ⟨r', hr', hv⟩ := attrs_mem h _ _ hm
    rw [hr] at hr'; cases hr'
    exact ⟨v, (C77_value hs _ _).1 hv⟩
  · intro h
    refine attrs_ok (fun n hn => ?_)
    rw [mem_common hs] at hn
    obtain ⟨hn, r, hr⟩ := hn
    obtain ⟨v, hv⟩ := h n hn r hr
    exact ⟨r, v, hr, (C77_value hs _ _).2 hv⟩

theorem record_spec {env : Env} (hs : Sane env) {d : List (String × Raw)} {r : Rec} (h : record env d = .ok r) : MeasurementOf env d r := by
  unfold record at h
  split at h
  · cases h
  · rename_i ps hp
    split at h
    · cases h
    · rename_i cs hc
      split at h
      · cases h
      · rename_i qs hq
        split at h
        · cases h
        · rename_i ts ht
          simp only [Except.ok.injEq] at h
          subst h
          exact ⟨ids_spec _ _ _, (tags_iff _ _).1 ht, common_attrs hs (by decide) hp, common_attrs hs (by decide) hc, common_attrs hs (by decide) hq⟩

/-- an experiment that is accepted -/
def Good (env : Env) (d : List (String × Raw)) : Prop := Readable env ["density", "kinematic viscosity", "temperature", "knob_2_setting"] d ∧ ∃ ts, TagsOf d ts

theorem record_accepts {env : Env} (hs : Sane env) (d : List (String × Raw)) : (∃ r, record env d = .ok r) ↔ Good env d := by
  have hsplit : Readable env ["density", "kinematic viscosity", "temperature", "knob_2_setting"] d ↔
      Readable env knownProperties d ∧ Readable env knownConditions d ∧ Readable env knownParameters d := by
    simp only [Readable, knownProperties, knownConditions, knownParameters, List.mem_cons, List.not_mem_nil, or_false, forall_eq_or_imp, forall_eq]
    exact ⟨fun ⟨a, b, c, d⟩ => ⟨⟨a, b⟩, c, d⟩, fun ⟨⟨a, b⟩, c, d⟩ => ⟨a, b, c, d⟩⟩
  unfold Good
  rw [hsplit, ← attrs_accepts hs, ← attrs_accepts hs, ← attrs_accepts hs]
  simp only [← tags_iff]
  unfold record
  constructor
  · rintro ⟨r, h⟩
    split at h
    · cases h
    · rename_i ps hp
      split at h
      · cases h
      · rename_i cs hc
        split at h
        · cases h
        · rename_i qs hq
          split at h
          · cases h
          · rename_i ts ht
            exact ⟨⟨⟨_, hp⟩, ⟨_, hc⟩, _, hq⟩, _, ht⟩
  · rintro ⟨⟨⟨_, hp⟩, ⟨_, hc⟩, _, hq⟩, _, ht⟩
    simp only [hp, hc, hq, ht]
    exact ⟨_, rfl⟩

/-! ### The heap -/

section
variable {L : Type} (env : Env) (same : Heap L String → Nat → Nat → Bool)

theorem construct_bare (h : Heap L String) (c : Cls) (hc : c = .measurementRun ∨ c = .materialRun) (n : String) : ∃ h', construct same h c { name := some n } = (h', .ok ()) ∧
    h'.next = h.next + 1 ∧ h'.obj h.next = { cls := c, name := some n } ∧ ∀ i, i ≠ h.next → h'.obj i = h.obj i := by
  rcases hc with rfl | rfl
  · refine ⟨_, by simp [construct, andThen, setSpec, setTemplate, setMaterial, setOwner, setProcess, finish, Heap.alloc, fresh, specType, templateType, materialType, ownerType, processType,
      accept, storeSpec, Heap.upd, unlinkOwner, linkOwner]; rfl, rfl, ?_, ?_⟩
    · simp
    · intro i hi; simp [hi]
  · refine ⟨_, by simp [construct, andThen, setSpec, setTemplate, setMaterial, setOwner, setProcess, finish, Heap.alloc, fresh, specType, templateType, materialType, ownerType, processType,
      accept, storeSpec, Heap.upd, unlinkProcess, linkProcess]; rfl, rfl, ?_, ?_⟩
    · simp
    · intro i hi; simp [hi]

theorem own (h : Heap L String) (x o : Nat) (n : String) (hx : h.obj x = { cls := .measurementRun, name := some n }) (ho : h.isA o .materialRun = true) (hne : x ≠ o) :
    ∃ h', setOwner same h x (.obj o) = (h', .ok ()) ∧ h'.next = h.next ∧ h'.obj x = { cls := .measurementRun, name := some n, owner := .obj o } ∧
      h'.obj o = { h.obj o with children := (h.obj o).children ++ [x] } ∧ ∀ i, i ≠ x → i ≠ o → h'.obj i = h.obj i := by
  refine ⟨linkOwner h x (.obj o), by simp [setOwner, hx, ownerType, unlinkOwner, accept, ho], rfl, ?_, ?_, ?_⟩
  · simp [linkOwner, Heap.upd, hne, hx]
  · simp [linkOwner, Heap.upd, Ne.symm hne]
  · intro i h1 h2; simp [linkOwner, Heap.upd, h1, h2]

/-- one experiment, for a run that is there -/
theorem addExperiment_spec (hs : Sane env) {st st' : St L} {o : Nat} {r : Raw} (ho : st.heap.isA o .materialRun = true) (h : addExperiment env same st o r = .ok st') :
    ∃ d, r = .dict d ∧ st'.heap.next = st.heap.next + 1 ∧ st'.heap.obj st.heap.next = { cls := .measurementRun, name := some "Measurement Run", owner := .obj o } ∧
      st'.heap.obj o = { st.heap.obj o with children := (st.heap.obj o).children ++ [st.heap.next] } ∧ (∀ i, i ≠ st.heap.next → i ≠ o → st'.heap.obj i = st.heap.obj i) ∧
      MeasurementOf env d (st'.data st.heap.next) ∧ (∀ i, i ≠ st.heap.next → st'.data i = st.data i) ∧ st'.extra = st.extra := by
  have hlt : o < st.heap.next := by simp only [Heap.isA, Bool.and_eq_true, decide_eq_true_eq] at ho; exact ho.1
  cases r with
  | dict d =>
    simp only [addExperiment] at h
    split at h
    · cases h
    · rename_i rec hr
      obtain ⟨h1, e1, n1, o1, k1⟩ := construct_bare same st.heap .measurementRun (.inl rfl) "Measurement Run"
      have ho1 : h1.isA o .materialRun = true := by
        simp only [Heap.isA, Bool.and_eq_true, decide_eq_true_eq] at ho ⊢
        rw [k1 o (by omega), n1]
        exact ⟨by omega, ho.2⟩
      obtain ⟨h2, e2, n2, o2, p2, k2⟩ := own same h1 st.heap.next o "Measurement Run" o1 ho1 (by omega)
      rw [e1] at h
      simp only [e2, Except.ok.injEq] at h
      subst h
      refine ⟨d, rfl, by simp [St.upd, n2, n1], by simp [St.upd, o2], ?_, ?_, ?_, ?_, rfl⟩
      · simp only [St.upd]; rw [p2, k1 o (by omega)]
      · intro i hi ho; simp only [St.upd]; rw [k2 i hi ho, k1 i hi]
      · simp only [St.upd, if_true]; exact record_spec hs hr
      · intro i hi; simp [St.upd, hi]
  | none | num x | str x | list x => simp [addExperiment] at h

theorem addExperiments_spec (hs : Sane env) {o : Nat} : ∀ (rs : List Raw) (st st' : St L), st.heap.isA o .materialRun = true → addExperiments env same o st rs = .ok st' →
    ∃ es : List (List (String × Raw)), rs = es.map .dict ∧ st'.heap.next = st.heap.next + es.length ∧
      st'.heap.obj o = { st.heap.obj o with children := (st.heap.obj o).children ++ (List.range es.length).map (fun k => st.heap.next + k) } ∧
      (∀ (k : Nat) e, es[k]? = some e → st'.heap.obj (st.heap.next + k) = { cls := .measurementRun, name := some "Measurement Run", owner := .obj o } ∧
        MeasurementOf env e (st'.data (st.heap.next + k))) ∧
      (∀ i < st.heap.next, i ≠ o → st'.heap.obj i = st.heap.obj i) ∧ (∀ i < st.heap.next, st'.data i = st.data i) ∧ st'.extra = st.extra
  | [], st, st', ho, h => by
    simp only [addExperiments, Except.ok.injEq] at h
    subst h
    exact ⟨[], by simp⟩
  | r :: rs, st, st', ho, h => by
    have hlt : o < st.heap.next := by simp only [Heap.isA, Bool.and_eq_true, decide_eq_true_eq] at ho; exact ho.1
    simp only [addExperiments] at h
    split at h
    · cases h
    · rename_i st1 h1
      obtain ⟨d, rfl, n1, m1, o1, k1, r1, d1, x1⟩ := addExperiment_spec env same hs ho h1
      have ho1 : st1.heap.isA o .materialRun = true := by
        simp only [Heap.isA, Bool.and_eq_true, decide_eq_true_eq] at ho ⊢
        rw [o1, n1]
        exact ⟨by omega, ho.2⟩
      obtain ⟨es, rfl, n2, o2, m2, k2, d2, x2⟩ := addExperiments_spec hs rs st1 st' ho1 h
      refine ⟨d :: es, rfl, by simp only [List.length_cons]; omega, ?_, ?_, ?_, ?_, by rw [x2, x1]⟩
      · rw [o2, o1, n1]
        simp only [List.length_cons, List.range_succ_eq_map, List.map_cons, List.map_map, List.append_assoc, List.cons_append, List.nil_append, Nat.add_zero]
        congr 3
        exact List.map_congr_left (fun k _ => by simp only [Function.comp]; omega)
      · intro k e he
        cases k with
        | zero =>
          simp only [List.getElem?_cons_zero, Option.some.injEq] at he
          subst he
          rw [Nat.add_zero, k2 _ (by omega) (by omega), d2 _ (by omega)]
          exact ⟨m1, r1⟩
        | succ k =>
          simp only [List.getElem?_cons_succ] at he
          have := m2 k e he
          rw [n1, show st.heap.next + 1 + k = st.heap.next + (k + 1) from by omega] at this
          exact this
      · intro i hi hio
        rw [k2 i (by omega) hio, k1 i (by omega) hio]
      · intro i hi
        rw [d2 i (by omega), d1 i (by omega)]

theorem experiments_spec {d : List (String × Raw)} {es : List (List (String × Raw))} (h : experiments d = .ok (es.map .dict)) : ExperimentsOf d es := by
  unfold experiments at h
  unfold ExperimentsOf
  split at h
  · rename_i hd
    simp only [Except.ok.injEq] at h
    simp [hd, List.map_eq_nil_iff.1 h.symm]
  · rename_i hd
    simp only [Except.ok.injEq] at h
    simp [hd, h]
  · rename_i s hd
    simp only [Except.ok.injEq] at h
    cases s <;> cases es <;> simp at h
    simp [hd]
  · rename_i s hd
    simp only [Except.ok.injEq] at h
    cases s <;> cases es <;> simp at h
    simp [hd]
  · cases h

variable [DecidableEq L]

/-- the changes to what was there before: the process, if one is given, has the run as its output material -/
def Kept (st st' : St L) (process : Arg L) (o : Nat) : Prop :=
  (∀ i < st.heap.next, st'.heap.obj i = if process = .obj i then { st.heap.obj i with output := some o } else st.heap.obj i) ∧
  (∀ i < st.heap.next, st'.data i = st.data i) ∧ ∀ i < st.heap.next, st'.extra i = st.extra i

theorem ingestDict_spec (hs : Sane env) {st st' : St L} {spec process : Arg L} {d : List (String × Raw)} (h : ingestDict env same st spec process d = .ok st') :
    ∃ es, RunOf env process d es st' st.heap.next ∧ st'.heap.next = st.heap.next + 1 + es.length ∧ Kept st st' process st.heap.next := by
  unfold ingestDict at h
  obtain ⟨h1, e1, n1, o1, k1⟩ := construct_bare same st.heap .materialRun (.inr rfl) "Material Run"
  rw [e1] at h
  simp only at h
  split at h
  · cases h
  · rename_i ts ht
    split at h
    · cases h
    · rename_i rs hrs
      split at h
      · cases h
      · rename_i st1 hst
        have ho : ({ st with heap := h1 }.upd st.heap.next { uids := ids d "sample_id" "given_sample_id", tags := ts } : St L).heap.isA st.heap.next .materialRun = true := by
          simp [St.upd, Heap.isA, n1, o1]
        obtain ⟨es, rfl, n2, o2, m2, k2, d2, x2⟩ := addExperiments_spec env same hs rs _ _ ho hst
        simp only [St.upd] at n2 o2 m2 k2 d2 x2
        rw [n1] at n2 o2 m2 k2 d2
        rw [o1] at o2
        -- the state before the process is set
        generalize hst2 : st1.giveSpec st.heap.next spec = st2 at h
        have hh : st2.heap = st1.heap := by rw [← hst2]; cases spec <;> rfl
        have hd : st2.data = st1.data := by rw [← hst2]; cases spec <;> rfl
        have hx : ∀ i < st.heap.next, st2.extra i = st.extra i := by
          intro i hi
          rw [← hst2]
          cases spec <;> simp [St.giveSpec, x2, show i ≠ st.heap.next from by omega]
        have hdata : st1.data st.heap.next = { uids := ids d "sample_id" "given_sample_id", tags := ts } := by rw [d2 _ (by omega)]; simp
        have olds : ∀ i < st.heap.next, st1.heap.obj i = st.heap.obj i := fun i hi => by rw [k2 i (by omega) (by omega), k1 i (by omega)]
        -- the description, for any heap that differs in the process
        have describe : ∀ h' : Heap L String, h'.next = st1.heap.next → h'.obj st.heap.next = { st1.heap.obj st.heap.next with process := refOf process } →
            (∀ i, i ≠ st.heap.next → h'.obj i = if process = .obj i then { st1.heap.obj i with output := some st.heap.next } else st1.heap.obj i) →
            (∀ i, process = .obj i → i < st.heap.next) →
            ∃ es, RunOf env process d es ({ st2 with heap := h' }) st.heap.next ∧ h'.next = st.heap.next + 1 + es.length ∧ Kept st { st2 with heap := h' } process st.heap.next := by
          intro h' hn ho hk hp
          refine ⟨es, ⟨experiments_spec hrs, ?_, ?_, ?_, ?_, ?_, ?_⟩, by omega, ?_, ?_, hx⟩
          · simp only [ho, o2, List.nil_append]
          · simp only [hd, hdata]; exact ids_spec _ _ _
          · simp only [hd, hdata]; exact (tags_iff _ _).1 ht
          · simp only [hd, hdata, and_self]
          · intro k e he
            have := m2 k e he
            simp only [hd]
            have hne : ¬ process = .obj (st.heap.next + 1 + k) := fun e => by have := hp _ e; omega
            rw [hk _ (by omega), if_neg hne]
            exact this
          · simp only [hn]; omega
          · intro i hi
            simp only
            rw [hk i (by omega), olds i hi]
          · intro i hi
            simp only [hd]
            rw [d2 i (by omega)]
            simp [show i ≠ st.heap.next from by omega]
        have hobj : (st1.heap.obj st.heap.next).cls = .materialRun ∧ (st1.heap.obj st.heap.next).process = .none := by rw [o2]; exact ⟨rfl, rfl⟩
        have set : ∀ a, setProcess st2.heap st.heap.next a = match accept st1.heap .processRun a with
            | none => (st1.heap, .error .typeError)
            | some r => (linkProcess st1.heap st.heap.next r, .ok ()) := by
          intro a
          simp only [setProcess, hh, hobj.1, processType, unlinkProcess, hobj.2]
          cases accept st1.heap .processRun a <;> rfl
        cases process with
        | none =>
          simp only [giveProcess, Except.ok.injEq] at h
          obtain ⟨es', h2⟩ := describe st2.heap (by rw [hh]) (by rw [hh]; simp only [refOf]; rw [← hobj.2]) (fun i _ => by rw [hh]; simp) (fun i h => by cases h)
          subst h
          exact ⟨es', h2⟩
        | other =>
          simp only [giveProcess] at h
          rw [set] at h
          simp only [accept] at h
          cases h
        | link l =>
          simp only [giveProcess] at h
          rw [set] at h
          simp only [accept, Except.ok.injEq] at h
          subst h
          exact describe _ rfl (by simp [linkProcess, Heap.upd, refOf]) (fun i hi => by simp [linkProcess, Heap.upd, hi]) (fun i h => by cases h)
        | obj p =>
          simp only [giveProcess] at h
          rw [set] at h
          simp only [accept] at h
          by_cases hp : st1.heap.isA p .processRun = true
          · rw [if_pos hp] at h
            simp only [Except.ok.injEq] at h
            subst h
            have hlt : p < st.heap.next := by
              simp only [Heap.isA, Bool.and_eq_true, decide_eq_true_eq] at hp
              by_cases h1 : p < st.heap.next
              · exact h1
              · by_cases h2 : p = st.heap.next
                · rw [h2, hobj.1] at hp; exact absurd hp.2 (by decide)
                · obtain ⟨k, rfl⟩ : ∃ k, p = st.heap.next + 1 + k := ⟨p - (st.heap.next + 1), by omega⟩
                  have hk : k < es.length := by omega
                  have := (m2 k es[k] (List.getElem?_eq_getElem hk)).1
                  rw [this] at hp
                  exact absurd hp.2 (by simp)
            refine describe _ rfl ?_ ?_ (fun i h => by cases h; exact hlt)
            · simp [linkProcess, Heap.upd, refOf, show st.heap.next ≠ p from by omega]
            · intro i hi
              simp only [linkProcess, Heap.upd, hi, if_false, Arg.obj.injEq]
              by_cases hip : i = p
              · simp [hip]
              · simp [hip, Ne.symm hip]
          · rw [if_neg hp] at h
            cases h

/-- everything that was there is as it was -/
structure Same (st st' : St L) : Prop where
  next : st.heap.next ≤ st'.heap.next
  obj : ∀ i < st.heap.next, st'.heap.obj i = st.heap.obj i
  data : ∀ i < st.heap.next, st'.data i = st.data i
  extra : ∀ i < st.heap.next, st'.extra i = st.extra i

omit [DecidableEq L] in
theorem Same.refl (st : St L) : Same st st := ⟨Nat.le_refl _, fun _ _ => rfl, fun _ _ => rfl, fun _ _ => rfl⟩

omit [DecidableEq L] in
theorem Same.trans {a b c : St L} (h : Same a b) (h' : Same b c) : Same a c :=
  ⟨Nat.le_trans h.next h'.next, fun i hi => (h'.obj i (Nat.lt_of_lt_of_le hi h.next)).trans (h.obj i hi), fun i hi => (h'.data i (Nat.lt_of_lt_of_le hi h.next)).trans (h.data i hi),
    fun i hi => (h'.extra i (Nat.lt_of_lt_of_le hi h.next)).trans (h.extra i hi)⟩

omit [DecidableEq L] in
theorem RunOf.later {process : Arg L} {d : List (String × Raw)} {es : List (List (String × Raw))} {st st' : St L} {o : Nat} (h : RunOf env process d es st o) (hs : Same st st') :
    RunOf env process d es st' o := by
  have h0 := h.room
  have hn := hs.next
  refine ⟨h.experiments, ?_, ?_, ?_, ?_, ?_, by omega⟩
  · rw [hs.obj _ (by omega)]; exact h.obj
  · rw [hs.data _ (by omega)]; exact h.uids
  · rw [hs.data _ (by omega)]; exact h.tags
  · rw [hs.data _ (by omega)]; exact h.bare
  · intro k e he
    have hk : k < es.length := (List.getElem?_eq_some_iff.1 he).1
    rw [hs.obj _ (by omega), hs.data _ (by omega)]
    exact h.measurement k e he

/-- What is returned is that of the data: a run for a dictionary, a list for a list. The runs of the members of a list have no process. -/
inductive Describes (env : Env) (st : St L) : Arg L → Raw → Res → Prop
  | run {process : Arg L} {d : List (String × Raw)} {es : List (List (String × Raw))} {o : Nat} (h : RunOf env process d es st o) : Describes env st process (.dict d) (.run o)
  | many {process : Arg L} {l : List Raw} {rs : List Res} (hl : l.length = rs.length) (h : ∀ (k : Nat) r x, l[k]? = some r → rs[k]? = some x → Describes env st .none r x) :
      Describes env st process (.list l) (.many rs)

omit [DecidableEq L] in
theorem Describes.later {process : Arg L} {r : Raw} {x : Res} {st st' : St L} (h : Describes env st process r x) (hs : Same st st') : Describes env st' process r x := by
  induction h with
  | run h => exact .run (h.later env hs)
  | many hl _ ih => exact .many hl (fun k r x h1 h2 => ih k r x h1 h2)

mutual
/-- the numbers of the runs returned -/
def Res.runs : Res → List Nat
  | .run o => [o]
  | .many l => runsAll l
def runsAll : List Res → List Nat
  | [] => []
  | r :: rs => r.runs ++ runsAll rs
end

theorem kept_none {st st' : St L} {o : Nat} (h : Kept st st' .none o) (hn : st.heap.next ≤ st'.heap.next) : Same st st' :=
  ⟨hn, fun i hi => by rw [h.1 i hi, if_neg (by simp)], h.2.1, h.2.2⟩

/-- new numbers, in order -/
def News (st st' : St L) (l : List Nat) : Prop := l.Pairwise (· < ·) ∧ ∀ o ∈ l, st.heap.next ≤ o ∧ o < st'.heap.next

mutual
theorem ingest_spec (hs : Sane env) : ∀ (r : Raw) (st st' : St L) (spec process : Arg L) (x : Res), ingest env same st spec process r = .ok (x, st') →
    Describes env st' process r x ∧ News st st' x.runs ∧ st.heap.next ≤ st'.heap.next ∧ (((∃ d, r = .dict d) ∧ Kept st st' process st.heap.next) ∨ ((¬ ∃ d, r = .dict d) ∧ Same st st'))
  | .none, st, st', spec, process, x, h => by simp only [ingest] at h; cases h
  | .num _, st, st', spec, process, x, h => by simp only [ingest] at h; cases h
  | .str _, st, st', spec, process, x, h => by simp only [ingest] at h; cases h
  | .dict d, st, st', spec, process, x, h => by
    simp only [ingest] at h
    split at h
    · cases h
    · rename_i st1 h1
      simp only [Except.ok.injEq, Prod.mk.injEq] at h
      obtain ⟨rfl, rfl⟩ := h
      obtain ⟨es, h2, h3, h4⟩ := ingestDict_spec env same hs h1
      refine ⟨.run h2, ⟨by simp [Res.runs], ?_⟩, by omega, .inl ⟨⟨d, rfl⟩, h4⟩⟩
      intro o ho
      simp only [Res.runs, List.mem_singleton] at ho
      omega
  | .list l, st, st', spec, process, x, h => by
    simp only [ingest] at h
    split at h
    · cases h
    · rename_i rs st1 h1
      simp only [Except.ok.injEq, Prod.mk.injEq] at h
      obtain ⟨rfl, rfl⟩ := h
      obtain ⟨h2, h3, h4, h5⟩ := ingestAll_spec hs l st st1 spec rs h1
      exact ⟨.many h2 h3, by simpa only [Res.runs] using h4, h5.next, .inr ⟨by simp, h5⟩⟩
theorem ingestAll_spec (hs : Sane env) : ∀ (l : List Raw) (st st' : St L) (spec : Arg L) (rs : List Res), ingestAll env same st spec l = .ok (rs, st') →
    l.length = rs.length ∧ (∀ (k : Nat) r x, l[k]? = some r → rs[k]? = some x → Describes env st' .none r x) ∧ News st st' (runsAll rs) ∧ Same st st'
  | [], st, st', spec, rs, h => by
    simp only [ingestAll, Except.ok.injEq, Prod.mk.injEq] at h
    obtain ⟨rfl, rfl⟩ := h
    exact ⟨rfl, by simp, by simp [News, runsAll], Same.refl _⟩
  | r :: l, st, st', spec, rs, h => by
    simp only [ingestAll] at h
    split at h
    · cases h
    · rename_i x st1 h1
      split at h
      · cases h
      · rename_i xs st2 h2
        simp only [Except.ok.injEq, Prod.mk.injEq] at h
        obtain ⟨rfl, rfl⟩ := h
        obtain ⟨a1, a2, a3, a4⟩ := ingest_spec hs r st st1 spec .none x h1
        obtain ⟨b1, b2, b3, b4⟩ := ingestAll_spec hs l st1 st2 spec xs h2
        have a5 : Same st st1 := a4.elim (fun h => kept_none h.2 a3) (fun h => h.2)
        refine ⟨by simp [b1], ?_, ?_, a5.trans b4⟩
        · intro k r' x' hr hx
          cases k with
          | zero =>
            simp only [List.getElem?_cons_zero, Option.some.injEq] at hr hx
            subst hr; subst hx
            exact a1.later env b4
          | succ k =>
            simp only [List.getElem?_cons_succ] at hr hx
            exact b2 k r' x' hr hx
        · have hn := b4.next
          refine ⟨?_, ?_⟩
          · rw [runsAll, List.pairwise_append]
            refine ⟨a2.1, b3.1, fun i hi j hj => ?_⟩
            have h1 := (a2.2 i hi).2
            have h2 := (b3.2 j hj).1
            omega
          · intro o ho
            rw [runsAll, List.mem_append] at ho
            rcases ho with ho | ho
            · have := a2.2 o ho; omega
            · have := b3.2 o ho; omega
end

/-- C77: of a dictionary a run is made, with a measurement for each experiment; of a list a list. The runs are new ones, each another. The process given gets the run of the dictionary as
its output material, nothing else that was there is changed. -/
theorem C77_ingest (hs : Sane env) (r : Raw) (st st' : St L) (spec process : Arg L) (x : Res) (h : ingest env same st spec process r = .ok (x, st')) :
    Describes env st' process r x ∧ x.runs.Pairwise (· < ·) ∧ (∀ o ∈ x.runs, st.heap.next ≤ o ∧ o < st'.heap.next) ∧
    (∀ i < st.heap.next, ((∃ d, r = .dict d) ∧ process = .obj i → st'.heap.obj i = { st.heap.obj i with output := some st.heap.next }) ∧
      (¬ ((∃ d, r = .dict d) ∧ process = .obj i) → st'.heap.obj i = st.heap.obj i)) ∧
    ∀ i < st.heap.next, st'.data i = st.data i ∧ st'.extra i = st.extra i := by
  obtain ⟨h1, h2, h3, h4⟩ := ingest_spec env same hs r st st' spec process x h
  refine ⟨h1, h2.1, h2.2, ?_⟩
  rcases h4 with ⟨hd, h4⟩ | ⟨hd, h4⟩
  · refine ⟨fun i hi => ?_, fun i hi => ⟨h4.2.1 i hi, h4.2.2 i hi⟩⟩
    rw [h4.1 i hi]
    by_cases hp : process = .obj i <;> simp [hp, hd]
  · refine ⟨fun i hi => ?_, fun i hi => ⟨h4.data i hi, h4.extra i hi⟩⟩
    exact ⟨fun h => absurd h.1 hd, fun _ => h4.obj i hi⟩

/-! ### What is accepted -/

/-- None, a link, or a process run -/
def Fits (st : St L) : Arg L → Prop
  | .none => True
  | .link _ => True
  | .obj p => st.heap.isA p .processRun = true
  | .other => False

/-- a dictionary with tags, and experiments that are good; or a list of such -/
inductive Fine (env : Env) : Raw → Prop
  | dict {d : List (String × Raw)} {ts : List (List Char)} {es : List (List (String × Raw))} (ht : TagsOf d ts) (he : ExperimentsOf d es) (hg : ∀ e ∈ es, Good env e) : Fine env (.dict d)
  | list {l : List Raw} (h : ∀ r ∈ l, Fine env r) : Fine env (.list l)

omit [DecidableEq L] in
theorem addExperiments_ok (hs : Sane env) {o : Nat} : ∀ (es : List (List (String × Raw))) (st : St L), st.heap.isA o .materialRun = true → (∀ e ∈ es, Good env e) →
    ∃ st', addExperiments env same o st (es.map .dict) = .ok st'
  | [], st, _, _ => ⟨st, rfl⟩
  | e :: es, st, ho, hg => by
    have hlt : o < st.heap.next := by simp only [Heap.isA, Bool.and_eq_true, decide_eq_true_eq] at ho; exact ho.1
    obtain ⟨r, hr⟩ := (record_accepts hs e).2 (hg e (List.mem_cons_self ..))
    obtain ⟨h1, e1, n1, o1, k1⟩ := construct_bare same st.heap .measurementRun (.inl rfl) "Measurement Run"
    have ho1 : h1.isA o .materialRun = true := by
      simp only [Heap.isA, Bool.and_eq_true, decide_eq_true_eq] at ho ⊢
      rw [k1 o (by omega), n1]
      exact ⟨by omega, ho.2⟩
    obtain ⟨h2, e2, n2, o2, p2, k2⟩ := own same h1 st.heap.next o "Measurement Run" o1 ho1 (by omega)
    have hst : addExperiment env same st o (.dict e) = .ok ({ st with heap := h2 }.upd st.heap.next r) := by simp only [addExperiment, hr, e1, e2]
    have ho2 : ({ st with heap := h2 }.upd st.heap.next r : St L).heap.isA o .materialRun = true := by
      simp only [Heap.isA, Bool.and_eq_true, decide_eq_true_eq, St.upd] at ho1 ⊢
      rw [p2, n2]
      exact ho1
    obtain ⟨st', h'⟩ := addExperiments_ok hs es _ ho2 (fun x hx => hg x (List.mem_cons_of_mem _ hx))
    exact ⟨st', by simp only [List.map_cons, addExperiments, hst]; exact h'⟩

theorem experiments_ok {d : List (String × Raw)} {es : List (List (String × Raw))} (h : ExperimentsOf d es) : experiments d = .ok (es.map .dict) := by
  unfold ExperimentsOf at h
  unfold experiments
  split at h
  · rename_i hd; simp [hd, h]
  · rename_i hd; simp [hd, h]
  · rename_i hd; simp [hd, h]
  · rename_i hd; simp [hd, h]
  · exact h.elim

theorem MeasurementOf.good {d : List (String × Raw)} {r : Rec} (h : MeasurementOf env d r) : Good env d := by
  refine ⟨?_, _, h.tags⟩
  have key : ∀ known l, AttrsOf env known d l → Readable env known d := by
    intro known l hl n hn r hr
    obtain ⟨v, hv⟩ := hl.2.2 n hn r hr
    obtain ⟨_, r', hr', hm⟩ := hl.2.1 n v hv
    rw [hr] at hr'; cases hr'
    exact ⟨v, hm⟩
  have h1 := key _ _ h.properties
  have h2 := key _ _ h.conditions
  have h3 := key _ _ h.parameters
  intro n hn
  simp only [List.mem_cons, List.not_mem_nil, or_false] at hn
  rcases hn with rfl | rfl | rfl | rfl
  · exact h1 _ (by simp)
  · exact h1 _ (by simp)
  · exact h2 _ (by simp)
  · exact h3 _ (by simp)

omit [DecidableEq L] in
/-- what is made is a run for data that are fine -/
theorem Describes.fine {process : Arg L} {r : Raw} {x : Res} {st : St L} (h : Describes env st process r x) : Fine env r := by
  induction h with
  | run h =>
    refine .dict h.tags h.experiments (fun e he => ?_)
    obtain ⟨k, hk⟩ := List.getElem?_of_mem he
    exact (h.measurement k e hk).2.good
  | many hl _ ih =>
    refine .list (fun r hr => ?_)
    obtain ⟨k, hk⟩ := List.getElem?_of_mem hr
    have : k < _ := (List.getElem?_eq_some_iff.1 hk).1
    rw [hl] at this
    exact ih k r _ hk (List.getElem?_eq_getElem this)

theorem ingestDict_accepts (hs : Sane env) (st : St L) (spec process : Arg L) (d : List (String × Raw)) :
    (∃ st', ingestDict env same st spec process d = .ok st') ↔ Fine env (.dict d) ∧ Fits st process := by
  obtain ⟨h1, e1, n1, o1, k1⟩ := construct_bare same st.heap .materialRun (.inr rfl) "Material Run"
  -- the process, once the measurements are there
  have proc : ∀ (ts : List (List Char)) (es : List (List (String × Raw))) (st1 : St L),
      addExperiments env same st.heap.next ({ st with heap := h1 }.upd st.heap.next { uids := ids d "sample_id" "given_sample_id", tags := ts }) (es.map .dict) = .ok st1 →
      ((∃ st', giveProcess (st1.giveSpec st.heap.next spec) st.heap.next process = .ok st') ↔ Fits st process) := by
    intro ts es st1 hst
    have ho : ({ st with heap := h1 }.upd st.heap.next { uids := ids d "sample_id" "given_sample_id", tags := ts } : St L).heap.isA st.heap.next .materialRun = true := by
      simp [St.upd, Heap.isA, n1, o1]
    obtain ⟨es', hes, n2, o2, m2, k2, d2, x2⟩ := addExperiments_spec env same hs _ _ _ ho hst
    simp only [St.upd] at n2 o2 m2 k2
    rw [n1] at n2 o2 m2 k2
    rw [o1] at o2
    have hh : (st1.giveSpec st.heap.next spec).heap = st1.heap := by cases spec <;> rfl
    have hobj : (st1.heap.obj st.heap.next).cls = .materialRun ∧ (st1.heap.obj st.heap.next).process = .none := by rw [o2]; exact ⟨rfl, rfl⟩
    have hA : ∀ p, st1.heap.isA p .processRun = st.heap.isA p .processRun := by
      intro p
      by_cases hp : p < st.heap.next
      · simp only [Heap.isA]
        rw [k2 p (by omega) (by omega), k1 p (by omega)]
        simp [hp, show p < st1.heap.next from by omega]
      · have : st.heap.isA p .processRun = false := by simp [Heap.isA, hp]
        rw [this]
        by_cases h2 : p = st.heap.next
        · simp [Heap.isA, h2, hobj.1]
        · obtain ⟨k, rfl⟩ : ∃ k, p = st.heap.next + 1 + k := ⟨p - (st.heap.next + 1), by omega⟩
          by_cases hk : k < es'.length
          · have := (m2 k es'[k] (List.getElem?_eq_getElem hk)).1
            simp [Heap.isA, this]
          · simp [Heap.isA, show ¬ st.heap.next + 1 + k < st1.heap.next from by omega]
    cases process with
    | none => simp [giveProcess, Fits]
    | other => simp [giveProcess, Fits, setProcess, hh, hobj.1, processType, accept]
    | link l => simp [giveProcess, Fits, setProcess, hh, hobj.1, processType, accept]
    | obj p =>
      simp only [giveProcess, Fits, setProcess, hh, hobj.1, processType, accept, ← hA]
      by_cases hp : st1.heap.isA p .processRun = true <;> simp [hp]
  constructor
  · rintro ⟨st', h⟩
    obtain ⟨es, hr, _⟩ := ingestDict_spec env same hs h
    refine ⟨(Describes.run hr).fine env, ?_⟩
    unfold ingestDict at h
    rw [e1] at h
    simp only at h
    split at h
    · cases h
    · rename_i ts ht
      rw [experiments_ok hr.experiments] at h
      simp only at h
      split at h
      · cases h
      · rename_i st1 hst
        exact (proc ts es st1 hst).1 ⟨st', h⟩
  · rintro ⟨hf, hp⟩
    cases hf with
    | @dict _ ts es ht he hg =>
      have ho : ({ st with heap := h1 }.upd st.heap.next { uids := ids d "sample_id" "given_sample_id", tags := ts } : St L).heap.isA st.heap.next .materialRun = true := by
        simp [St.upd, Heap.isA, n1, o1]
      obtain ⟨st1, hst⟩ := addExperiments_ok env same hs _ _ ho hg
      obtain ⟨st', h'⟩ := (proc _ _ _ hst).2 hp
      refine ⟨st', ?_⟩
      unfold ingestDict
      rw [e1]
      simp only [(tags_iff _ _).2 ht, experiments_ok he, hst, h']

mutual
theorem ingest_ok (hs : Sane env) : ∀ (r : Raw) (st : St L) (spec process : Arg L), Fine env r → ((∃ d, r = .dict d) → Fits st process) → ∃ x st', ingest env same st spec process r = .ok (x, st')
  | .none, st, spec, process, h, _ => by cases h
  | .num _, st, spec, process, h, _ => by cases h
  | .str _, st, spec, process, h, _ => by cases h
  | .dict d, st, spec, process, h, hp => by
    obtain ⟨st', h'⟩ := (ingestDict_accepts env same hs st spec process d).2 ⟨h, hp ⟨d, rfl⟩⟩
    exact ⟨.run st.heap.next, st', by simp only [ingest, h']⟩
  | .list l, st, spec, process, h, _ => by
    have hl : ∀ r ∈ l, Fine env r := by cases h with | list h => exact h
    obtain ⟨rs, st', h'⟩ := ingestAll_ok hs l st spec hl
    exact ⟨.many rs, st', by simp only [ingest, h']⟩
theorem ingestAll_ok (hs : Sane env) : ∀ (l : List Raw) (st : St L) (spec : Arg L), (∀ r ∈ l, Fine env r) → ∃ rs st', ingestAll env same st spec l = .ok (rs, st')
  | [], st, spec, _ => ⟨[], st, by simp only [ingestAll]⟩
  | r :: l, st, spec, h => by
    obtain ⟨x, st1, h1⟩ := ingest_ok hs r st spec .none (h r (List.mem_cons_self ..)) (fun _ => trivial)
    obtain ⟨rs, st2, h2⟩ := ingestAll_ok hs l st1 spec (fun r hr => h r (List.mem_cons_of_mem _ hr))
    exact ⟨x :: rs, st2, by simp only [ingestAll, h1, h2]⟩
end

/-- C77: data are accepted exactly if they are fine - dictionaries with readable values, or lists of such - and, for a dictionary, the process is a process run, a link or None. The spec does
not matter. -/
theorem C77_accepts (hs : Sane env) (r : Raw) (st : St L) (spec process : Arg L) :
    (∃ x st', ingest env same st spec process r = .ok (x, st')) ↔ Fine env r ∧ ((∃ d, r = .dict d) → Fits st process) := by
  constructor
  · rintro ⟨x, st', h⟩
    refine ⟨(ingest_spec env same hs r st st' spec process x h).1.fine env, ?_⟩
    rintro ⟨d, rfl⟩
    simp only [ingest] at h
    split at h
    · cases h
    · rename_i st1 h1
      exact ((ingestDict_accepts env same hs st spec process d).1 ⟨st1, h1⟩).2
  · rintro ⟨h, hp⟩
    exact ingest_ok env same hs r st spec process h hp

/-! ### What is not as it might be expected -/

/-- C77 read as "the run has the spec given" is false: whatever spec is given, the run has none; the spec is an attribute of its own. -/
theorem C77_spec_fails (hs : Sane env) (d : List (String × Raw)) (st st' : St L) (spec process : Arg L) (x : Res) (h : ingest env same st spec process (.dict d) = .ok (x, st')) :
    x = .run st.heap.next ∧ (st'.heap.obj st.heap.next).spec = .none ∧ (spec ≠ .none → st'.extra st.heap.next = some spec) := by
  simp only [ingest] at h
  split at h
  · cases h
  · rename_i st1 h1
    simp only [Except.ok.injEq, Prod.mk.injEq] at h
    obtain ⟨rfl, rfl⟩ := h
    obtain ⟨es, hr, _⟩ := ingestDict_spec env same hs h1
    refine ⟨rfl, by rw [hr.obj], fun hne => ?_⟩
    unfold ingestDict at h1
    split at h1
    · cases h1
    · split at h1
      · cases h1
      · split at h1
        · cases h1
        · split at h1
          · cases h1
          · rename_i st2 _
            have hx : (st2.giveSpec st.heap.next spec).extra st.heap.next = some spec := by
              cases spec with
              | none => exact absurd rfl hne
              | link l | obj o | other => simp [St.giveSpec]
            unfold giveProcess at h1
            split at h1
            · simp only [Except.ok.injEq] at h1; rw [← h1]; exact hx
            · split at h1
              · cases h1
              · simp only [Except.ok.injEq] at h1; rw [← h1]; exact hx

omit [DecidableEq L] in
/-- C77 read as "the runs of a list have the process given" is false: with a list the process does not matter, not even whether it is one. -/
theorem C77_process_fails (l : List Raw) (st : St L) (spec process process' : Arg L) : ingest env same st spec process (.list l) = ingest env same st spec process' (.list l) := by
  simp only [ingest]
end

/-- C77: a deviation that is missing after the sign for it is an IndexError; a text of several words that does not begin with a number, a list, a dictionary and None are ValueErrors. -/
theorem C77_raises (env : Env) : (∀ s t w m, Splits env.space s [t, w] → plusMinus w → env.read t = some m → parseValue env (.str s) = .error .indexError) ∧
    (∀ s t w rest, Splits env.space s (t :: w :: rest) → env.read t = none → parseValue env (.str s) = .error .valueError) ∧
    ∀ r, (∀ x, r ≠ .num x) → (∀ s, r ≠ .str s) → parseValue env r = .error .valueError := by
  refine ⟨?_, ?_, ?_⟩
  · intro s t w m hs hw hm
    rw [splits_iff] at hs
    have hw' : w = ['+', '-'] ∨ w = ['+', '/', '-'] := hw
    simp [parseValue, hs, parseWords, float, hm, deviation, hw']
  · intro s t w rest hs hm
    rw [splits_iff] at hs
    simp [parseValue, hs, parseWords, float, hm]
  · intro r h1 h2
    cases r with
    | num x => exact absurd rfl (h1 x)
    | str s => exact absurd rfl (h2 s)
    | none | list l | dict d => rfl

/-- C77 read as "the unit is what follows the number" is false: of a unit written with blanks, as in the bounds of the templates, the last word is taken. -/
theorem C77_unit_counterexample (env : Env) (hsp : ∀ c, env.space c = decide (c = ' ')) (hr : env.read ['1'] = some 1) (hu : env.parse "cm^3".toList = .ok "cm^3".toList) :
    Means env (.str "1 g / cm^3".toList) (.nominal 1 "cm^3".toList) := by
  refine TextMeans.nominal (t := ['1']) (w := ['g']) (rest := [['/'], "cm^3".toList]) ?_ (by unfold plusMinus; decide) hr (.inl hu)
  rw [splits_iff]
  have : env.space = fun c => decide (c = ' ') := funext hsp
  rw [this]
  simp [split_eq]

/-! ## Tables -/

section
variable {L : Type} (env : Env) (same : Heap L String → Nat → Nat → Bool)

/-- the one attribute of this name, if there is a cell; it has no unit -/
def CellIs (row : List (String × Option Rat)) (n : String) (l : List (String × Val)) : Prop := match Dict.get? row n with
  | none => l = []
  | some (some x) => l = [(n, .nominal x [])]
  | some none => False

theorem cellOf_iff (hs : Sane env) (row : List (String × Option Rat)) (n : String) (l : List (String × Val)) : cellOf env row n = .ok l ↔ CellIs row n l := by
  unfold cellOf CellIs
  cases h : Dict.get? row n with
  | none => simp [eq_comm]
  | some c => cases c <;> simp [cell, nominal, hs.empty, eq_comm]

theorem cellOf_error (hs : Sane env) (row : List (String × Option Rat)) (n : String) (e : PyErr) (h : cellOf env row n = .error e) : e = .assertionError ∧ Dict.get? row n = some none := by
  unfold cellOf at h
  cases hg : Dict.get? row n with
  | none => simp [hg] at h
  | some c =>
    cases c with
    | none => simp [hg, cell, hs.empty] at h; exact ⟨h.symm, rfl⟩
    | some x => simp [hg, cell, nominal, hs.empty] at h

/-- the measurement of a row -/
structure RowOf (st : St L) (o i : Nat) (row : List (String × Option Rat)) : Prop where
  obj : st.heap.obj i = { cls := .measurementRun, name := some "Material Run", spec := .none, owner := .obj o }
  properties : CellIs row "vapor pressure" (st.data i).properties
  conditions : CellIs row "temperature" (st.data i).conditions
  rest : (st.data i).uids = [] ∧ (st.data i).tags = [] ∧ (st.data i).parameters = []

/-- a row whose known cells are numbers -/
abbrev NumericRow (row : List (String × Option Rat)) : Prop := Dict.get? row "vapor pressure" ≠ some none ∧ Dict.get? row "temperature" ≠ some none

theorem numeric_cells {row : List (String × Option Rat)} (h : NumericRow row) : (∃ l, CellIs row "vapor pressure" l) ∧ ∃ l, CellIs row "temperature" l := by
  have key : ∀ n, Dict.get? row n ≠ some none → ∃ l, CellIs row n l := by
    intro n hn
    unfold CellIs
    cases h : Dict.get? row n with
    | none => exact ⟨[], rfl⟩
    | some c => cases c with
      | none => exact absurd h hn
      | some x => exact ⟨_, rfl⟩
  exact ⟨key _ h.1, key _ h.2⟩

theorem addRow_ok (hs : Sane env) {st : St L} {o : Nat} (ho : st.heap.isA o .materialRun = true) {row : List (String × Option Rat)} (hr : NumericRow row) :
    ∃ st', addRow env same st (.obj o) row = (st', .ok ()) ∧ st'.heap.next = st.heap.next + 1 ∧ RowOf st' o st.heap.next row ∧
      st'.heap.obj o = { st.heap.obj o with children := (st.heap.obj o).children ++ [st.heap.next] } ∧
      (∀ i, i ≠ st.heap.next → i ≠ o → st'.heap.obj i = st.heap.obj i) ∧ ∀ i, i ≠ st.heap.next → st'.data i = st.data i := by
  have hlt : o < st.heap.next := by simp only [Heap.isA, Bool.and_eq_true, decide_eq_true_eq] at ho; exact ho.1
  obtain ⟨⟨ps, hp⟩, cs, hc⟩ := numeric_cells hr
  obtain ⟨h1, e1, n1, o1, k1⟩ := construct_bare same st.heap .measurementRun (.inl rfl) "Material Run"
  have ho1 : h1.isA o .materialRun = true := by
    simp only [Heap.isA, Bool.and_eq_true, decide_eq_true_eq] at ho ⊢
    rw [k1 o (by omega), n1]
    exact ⟨by omega, ho.2⟩
  obtain ⟨h2, e2, n2, o2, p2, k2⟩ := own same h1 st.heap.next o "Material Run" o1 ho1 (by omega)
  refine ⟨{ st with heap := h2 }.upd st.heap.next { properties := ps, conditions := cs }, ?_, ?_, ⟨?_, ?_, ?_, ?_⟩, ?_, ?_, ?_⟩
  · simp only [addRow, (cellOf_iff env hs row _ _).2 hp, (cellOf_iff env hs row _ _).2 hc, e1, e2]
  · simp [St.upd, n2, n1]
  · simp only [St.upd]; exact o2
  · simpa [St.upd] using hp
  · simpa [St.upd] using hc
  · simp [St.upd]
  · simp only [St.upd]; rw [p2, k1 o (by omega)]
  · intro i hi hio; simp only [St.upd]; rw [k2 i hi hio, k1 i hi]
  · intro i hi; simp [St.upd, hi]

/-- C77: each row of a table whose known cells are numbers becomes a measurement of the run, in order, after those it has; the first row with another cell stops this with an AssertionError, the
measurements of the rows before it staying. Nothing else is changed. -/
theorem C77_table (hs : Sane env) {o : Nat} : ∀ (rows : List (List (String × Option Rat))) (st : St L), st.heap.isA o .materialRun = true →
    ∃ n st' out, ingestTable env same (.obj o) st rows = (st', out) ∧ n ≤ rows.length ∧ (∀ (k : Nat) row, rows[k]? = some row → k < n → NumericRow row ∧ RowOf st' o (st.heap.next + k) row) ∧
      st'.heap.next = st.heap.next + n ∧ st'.heap.obj o = { st.heap.obj o with children := (st.heap.obj o).children ++ (List.range n).map (fun k => st.heap.next + k) } ∧
      (∀ i < st.heap.next, i ≠ o → st'.heap.obj i = st.heap.obj i) ∧ (∀ i < st.heap.next, st'.data i = st.data i) ∧
      ((n = rows.length ∧ out = .ok ()) ∨ (out = .error .assertionError ∧ ∃ row, rows[n]? = some row ∧ ¬ NumericRow row))
  | [], st, ho => ⟨0, st, .ok (), rfl, by simp⟩
  | row :: rows, st, ho => by
    have hlt : o < st.heap.next := by simp only [Heap.isA, Bool.and_eq_true, decide_eq_true_eq] at ho; exact ho.1
    by_cases hr : NumericRow row
    · obtain ⟨st1, e1, n1, r1, o1, k1, d1⟩ := addRow_ok env same hs ho hr
      have ho1 : st1.heap.isA o .materialRun = true := by
        simp only [Heap.isA, Bool.and_eq_true, decide_eq_true_eq] at ho ⊢
        rw [o1, n1]
        exact ⟨by omega, ho.2⟩
      obtain ⟨n, st2, out, e2, hn, hrows, n2, o2, k2, d2, hout⟩ := C77_table hs rows st1 ho1
      refine ⟨n + 1, st2, out, by simp only [ingestTable, e1, e2], by simp only [List.length_cons]; omega, ?_, by omega, ?_, ?_, ?_, ?_⟩
      · intro k row' hk hlt'
        cases k with
        | zero =>
          simp only [List.getElem?_cons_zero, Option.some.injEq] at hk
          subst hk
          refine ⟨hr, ?_⟩
          rw [Nat.add_zero]
          refine ⟨?_, ?_, ?_, ?_⟩
          · rw [k2 _ (by omega) (by omega)]; exact r1.obj
          · rw [d2 _ (by omega)]; exact r1.properties
          · rw [d2 _ (by omega)]; exact r1.conditions
          · rw [d2 _ (by omega)]; exact r1.rest
        | succ k =>
          simp only [List.getElem?_cons_succ] at hk
          have := hrows k row' hk (by omega)
          rw [n1, show st.heap.next + 1 + k = st.heap.next + (k + 1) from by omega] at this
          exact this
      · rw [o2, o1, n1]
        simp only [List.range_succ_eq_map, List.map_cons, List.map_map, List.append_assoc, List.cons_append, List.nil_append, Nat.add_zero]
        congr 3
        exact List.map_congr_left (fun k _ => by simp only [Function.comp]; omega)
      · intro i hi hio; rw [k2 i (by omega) hio, k1 i (by omega) hio]
      · intro i hi; rw [d2 i (by omega), d1 i (by omega)]
      · rcases hout with ⟨h1, h2⟩ | ⟨h1, row', h2, h3⟩
        · exact .inl ⟨by simp [h1], h2⟩
        · exact .inr ⟨h1, row', by simpa using h2, h3⟩
    · have herr : addRow env same st (.obj o) row = (st, .error .assertionError) := by
        unfold addRow
        cases h1 : cellOf env row "vapor pressure" with
        | error e => rw [(cellOf_error env hs row _ e h1).1]
        | ok ps =>
          cases h2 : cellOf env row "temperature" with
          | error e => simp only; rw [(cellOf_error env hs row _ e h2).1]
          | ok cs =>
            have h1' := (cellOf_iff env hs row _ _).1 h1
            have h2' := (cellOf_iff env hs row _ _).1 h2
            exfalso
            refine hr ⟨fun h => ?_, fun h => ?_⟩
            · simp [CellIs, h] at h1'
            · simp [CellIs, h] at h2'
      refine ⟨0, st, .error .assertionError, by simp only [ingestTable, herr], by simp, by simp, by simp, by simp, fun _ _ _ => rfl, fun _ _ => rfl, .inr ⟨rfl, row, rfl, hr⟩⟩
end

/-! ## An example -/

/-- numbers, units and sets for the example -/
def exEnv : Env where
  space c := decide (c = ' ')
  read s := if s = ['1', '.', '0'] then some 1 else if s = ['0', '.', '5'] then some (1 / 2) else if s = ['3', '0', '0'] then some 300 else none
  parse s := if s = [] ∨ s = "g/cm^3".toList ∨ s = "degF".toList then .ok s else .error .undefinedUnit
  order l := l

example : Sane exEnv := by
  refine ⟨by decide, fun t u h => ?_, fun l => .refl _⟩
  simp only [exEnv] at h ⊢
  split at h
  · rename_i ht; simp only [Except.ok.injEq] at h; subst h; rw [if_pos ht]
  · cases h

/-- part of the data of the test -/
def exData : Raw := .dict [("sample_id", .str "37e6".toList), ("tags", .list [.str "example".toList, .str "demo".toList]),
  ("experiments", .list [.dict [("knob_2_setting", .str "low".toList), ("temperature", .str "300 degF".toList), ("density", .str "1.0 +- 0.5 g/cm^3".toList), ("tags", .str "warm up".toList)],
    .dict [("density", .str "1.0 furlong".toList)]])]

/-- the heap with a process run -/
def exSt : St Unit := ⟨(Heap.empty.alloc { cls := .processRun }), fun _ => {}, fun _ => none⟩

/-- what is asked of what comes of the data -/
def exHolds : Except PyErr (Res × St Unit) → Prop
  | .ok (x, st') => x.runs = [1] ∧ (st'.heap.obj 1).children = [2, 3] ∧ (st'.heap.obj 0).output = some 1 ∧ (st'.data 2).properties = [("density", .normal 1 (1 / 2) "g/cm^3".toList)] ∧
    (st'.data 2).conditions = [("temperature", .nominal 300 "degF".toList)] ∧ (st'.data 2).parameters = [("knob_2_setting", .category "low".toList)] ∧
    (st'.data 2).tags = ["warm up".toList] ∧ (st'.data 3).properties = [("density", .nominal 1 [])]
  | .error _ => False

instance : DecidablePred exHolds
  | .ok (x, st') => by unfold exHolds; infer_instance
  | .error _ => by unfold exHolds; infer_instance

example : exHolds (ingest exEnv (fun _ _ _ => false) exSt .none (.obj 0) exData) := by decide +kernel

example : NumericRow [("vapor pressure", some 1), ("colour", none)] ∧ ¬ NumericRow [("temperature", none)] := by decide +kernel

end Verif.Ingest
