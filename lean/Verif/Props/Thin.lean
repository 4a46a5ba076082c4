import Verif.Props.RawCopy
import Verif.Props.BackLinks
import Verif.Props.Resolve
/-!
# C59: what `thin_dumps` writes

`raw_loads(thin_dumps(x))` is `x` with links in place of the entities it points to.
-/

set_option linter.unusedSimpArgs false
set_option linter.unusedVariables false
set_option linter.unusedSectionVars false

namespace Verif.Substitute
open Verif.Py Verif.Value Verif.Schema Verif.Json Verif.Traverse

/-! ### Two copies in a row -/

section
variable {L L' L'' : Nat → V → Prop} {G G' G'' : String → String → V → Prop}

theorem alikes_nil {l : List V} : alikes L G [] l ↔ l = [] := by simp [alikes]

/-- a permutation of the left side of a row of pairs can be followed on the right -/
theorem follow_perm {P : V → V → Prop} {A B : List (V × V)} (h : A.Perm B) : ∀ (C : List (V × V)), C.map Prod.fst = B.map Prod.fst →
    (∀ i (h1 : i < B.length) (h2 : i < C.length), P B[i].2 C[i].2) →
    ∃ D : List (V × V), D.Perm C ∧ D.map Prod.fst = A.map Prod.fst ∧ ∀ i (h1 : i < A.length) (h2 : i < D.length), P A[i].2 D[i].2 := by
  induction h with
  | nil =>
    intro C hC _
    have : C = [] := by simpa using hC
    subst this
    exact ⟨[], .nil, rfl, fun i h1 => by simp at h1⟩
  | cons x _ ih =>
    intro C hC hP
    cases C with
    | nil => simp at hC
    | cons c C =>
      simp only [List.map_cons, List.cons.injEq] at hC
      obtain ⟨D, d1, d2, d3⟩ := ih C hC.2 (fun i h1 h2 => by
        have := hP (i + 1) (by simpa using h1) (by simpa using h2)
        simpa using this)
      refine ⟨c :: D, d1.cons c, by simp [d2, hC.1], ?_⟩
      intro i h1 h2
      cases i with
      | zero => exact hP 0 (by simp) (by simp)
      | succ i => simpa using d3 i (by simpa using h1) (by simpa using h2)
  | swap x y l =>
    intro C hC hP
    match C, hC, hP with
    | [], hC, _ => simp at hC
    | [_], hC, _ => simp at hC
    | a :: b :: C, hC, hP =>
      simp only [List.map_cons, List.cons.injEq] at hC
      refine ⟨b :: a :: C, .swap a b C, by simp [hC], ?_⟩
      intro i h1 h2
      match i with
      | 0 => exact hP 1 (by simp) (by simp)
      | 1 => exact hP 0 (by simp) (by simp)
      | i + 2 => exact hP (i + 2) (by simpa using h1) (by simpa using h2)
  | trans _ _ ih1 ih2 =>
    intro C hC hP
    obtain ⟨D, d1, d2, d3⟩ := ih2 C hC hP
    obtain ⟨E, e1, e2, e3⟩ := ih1 D d2 d3
    exact ⟨E, e1.trans d1, e2, e3⟩

theorem alikes_nth {l l' : List V} (h : alikes L G l l') : ∀ i (h1 : i < l.length) (h2 : i < l'.length), alike L G l[i] l'[i] := by
  induction l generalizing l' with
  | nil => intro i h1; simp at h1
  | cons v vs ih =>
    simp only [alikes] at h
    obtain ⟨w, ws, rfl, h1, h2⟩ := h
    intro i i1 i2
    cases i with
    | zero => exact h1
    | succ i => exact ih h2 i (by simpa using i1) (by simpa using i2)

theorem alikes_of_nth : ∀ {l l' : List V}, l'.length = l.length → (∀ i (h1 : i < l.length) (h2 : i < l'.length), alike L G l[i] l'[i]) → alikes L G l l'
  | [], l', h, _ => by
    have : l' = [] := by simpa using h
    simp [alikes, this]
  | v :: vs, [], h, _ => by simp at h
  | v :: vs, w :: ws, h, h' => by
    simp only [alikes]
    exact ⟨w, ws, rfl, h' 0 (by simp) (by simp), alikes_of_nth (by simpa using h) (fun i h1 h2 => by
      have := h' (i + 1) (by simpa using h1) (by simpa using h2)
      simpa using this)⟩

theorem num_alike {w u : V} {q : Rat} (h : Schema.num w = some q) (h' : alike L G w u) : Schema.num u = some q := by
  cases w <;> simp only [Schema.num, reduceCtorEq, Option.some.injEq] at h <;> simp only [alike] at h' <;> rw [h', h]

variable (hL : ∀ o w u, L o w → alike L' G' w u → L'' o u) (hG : ∀ s i w u, G s i w → alike L' G' w u → G'' s i u)
include hL hG

mutual
/-- a copy of a copy -/
theorem alike_comp (v w u : V) (h : alike L G v w) (h' : alike L' G' w u) : alike L'' G'' v u := by
  cases v with
  | list l =>
    simp only [alike] at h
    obtain ⟨l', rfl, h⟩ := h
    simp only [alike] at h'
    obtain ⟨l'', rfl, h'⟩ := h'
    exact ⟨l'', rfl, alikes_comp l l' l'' h h'⟩
  | tuple l =>
    simp only [alike] at h
    obtain ⟨l', rfl, h⟩ := h
    simp only [alike] at h'
    obtain ⟨l'', rfl, h'⟩ := h'
    exact ⟨l'', rfl, alikes_comp l l' l'' h h'⟩
  | obj t ns vs =>
    simp only [alike] at h
    obtain ⟨l', rfl, h⟩ := h
    simp only [alike] at h'
    obtain ⟨l'', rfl, h'⟩ := h'
    exact ⟨l'', rfl, alikes_comp vs l' l'' h h'⟩
  | dict ks vs =>
    simp only [alike] at h
    obtain ⟨ks', vs', ps, rfl, e2, e3, e4, h⟩ := h
    simp only [alike] at h'
    obtain ⟨ks'', vs'', qs, rfl, f2, f3, f4, h'⟩ := h'
    have hlen := alikes_length h'
    rw [List.length_map] at hlen
    obtain ⟨D, d1, d2, d3⟩ := follow_perm (P := fun a b => alike L' G' a b) e3 qs (by rw [f4, List.map_fst_zip (by omega)]) (fun i h1 h2 => by
      have := alikes_nth h' i (by simp at h1; omega) (by simpa using h2)
      simpa using this)
    refine ⟨ks'', vs'', D, rfl, f2, d1.trans f3, d2.trans e4, alikes_comp vs (ps.map Prod.snd) (D.map Prod.snd) h ?_⟩
    have hl : D.length = ps.length := by simpa using congrArg List.length d2
    exact alikes_of_nth (by simpa using hl) (fun i h1 h2 => by
      have := d3 i (by simpa using h1) (by simpa using h2)
      simpa using this)
  | link s i => exact hG s i w u h h'
  | ref o => exact hL o w u h h'
  | none => simp only [alike] at h; subst h; exact h'
  | str s => simp only [alike] at h; subst h; exact h'
  | bool b => exact num_alike h h'
  | int b => exact num_alike h h'
  | float b => exact num_alike h h'
termination_by structural v
theorem alikes_comp (l l' l'' : List V) (h : alikes L G l l') (h' : alikes L' G' l' l'') : alikes L'' G'' l l'' := by
  cases l with
  | nil =>
    simp only [alikes] at h
    subst h
    exact h'
  | cons v vs =>
    simp only [alikes] at h
    obtain ⟨w, ws, rfl, h1, h2⟩ := h
    simp only [alikes] at h'
    obtain ⟨u, us, rfl, k1, k2⟩ := h'
    exact ⟨u, us, rfl, alike_comp v w u h1 k1, alikes_comp vs ws us h2 k2⟩
termination_by structural l
end

end

/-! ### The property -/

/-- ids written as a dictionary and read again -/
theorem alike_uids_perm {L : Nat → V → Prop} {G : String → String → V → Prop} {us us' : List (String × String)} (h : alike L G (uidsDict us) (uidsDict us')) : us'.Perm us := by
  unfold uidsDict at h
  simp only [alike] at h
  obtain ⟨ks, vs, ps, e, hl, hp, h1, h2⟩ := h
  cases e
  have h3 : ps.map Prod.snd = us.map (fun p => V.str p.2) := by
    have := alikes_strings (us.map Prod.snd) _ (by simpa [List.map_map, Function.comp_def] using h2)
    simpa [List.map_map, Function.comp_def] using this
  have h4 : ps = us.map (fun p => (V.str p.1, V.str p.2)) := by
    apply List.ext_getElem
    · simpa using congrArg List.length h1
    · intro i i1 i2
      have a := congrArg (·[i]?) h1
      have b := congrArg (·[i]?) h3
      simp only [List.length_map] at i2
      simp [i1, i2] at a b
      simp [← a, ← b]
  have h5 : (us'.map (fun p => V.str p.1)).zip (us'.map (fun p => V.str p.2)) = us'.map (fun p => (V.str p.1, V.str p.2)) := by
    rw [List.zip_map']
  rw [h4, h5] at hp
  obtain ⟨l, hl, e⟩ := perm_unmap _ hp.symm us rfl
  have : us' = l := by
    have inj : Function.Injective (fun p : String × String => (V.str p.1, V.str p.2)) := by
      rintro ⟨a, b⟩ ⟨c, d⟩ h
      simpa using h
    exact List.map_inj_right (fun a b => @inj a b) |>.1 e
  exact this ▸ hl

/-- `u`, in the memory `m'`, is what `v` of the memory `m` looks like when it is read from a thin version into the memory `m0`: an entity is read as one new entity
of its class, with its ids, and with links in place of the entities it points to; in any other value, entities are replaced by links. -/
def ThinCopy (lower : String → String) (m : Mem) (v : V) (m0 : Mem) (u : V) (m' : Mem) : Prop := match v with
  | .ref o => ∃ x z, m[o]? = some x ∧ u = .ref m0.length ∧ m' = m0 ++ [z] ∧ Copied lower m x m' z
  | v => m' = m0 ∧ alike (LinkTo lower m) SameLink v u ∧ ∀ o, V.ref o ∉ u.subs

/-- what may be written -/
structure Thinnable (env : Env) (m : Mem) (obj : V) : Prop where
  graph : Flattenable env m obj
  there : ∀ o, Reachable m false obj (.ref o) → o < m.length
  wf : wf obj
  noTuple : noTuple obj
  ok : okV env m obj

theorem link_comp {lower : String → String} {m : Mem} {ψ : Nat → Nat} : (∀ o w u, LinkTo lower m o w → alike (CopyOf ψ) SameLink w u → LinkTo lower m o u) ∧
    ∀ s i w u, SameLink s i w → alike (CopyOf ψ) SameLink w u → SameLink s i u := by
  refine ⟨?_, ?_⟩
  · rintro o w u ⟨s, i, rfl, hc⟩ h
    exact ⟨s, i, h, hc⟩
  · intro s i w u h h'
    cases h
    exact h'

/-- nothing without entities is read as an entity -/
theorem noRef_copy {ψ : Nat → Nat} {v w : V} (hv : wf v) (h : alike (CopyOf ψ) SameLink v w) (hn : ∀ o, V.ref o ∉ v.subs) : ∀ o, V.ref o ∉ w.subs := by
  intro q hq
  obtain ⟨o, ho, _⟩ := alike_ref v w hv h q hq (fun o w ⟨p, e, _⟩ => ⟨p, e⟩)
  exact hn o ho

section
variable {env : Env} {m : Mem} {obj : V} (h : Thinnable env m obj) (hu : Identified m obj)
include h hu

/-- a value that is not an entity -/
theorem thin_value (hnot : ∀ o, obj ≠ .ref o) : ∃ w t, substituteLinks env none true m obj = .ok (w, m) ∧ rawDumps m w = .ok t ∧
    ∀ m0, WellTyped env m0 → ∃ u, rawLoads env m0 t = .ok (u, m0) ∧ alike (LinkTo env.lower m) SameLink obj u ∧ ∀ o, V.ref o ∉ u.subs := by
  have hr : ∀ p, V.ref p ∈ obj.subs → ∃ y, m[p]? = some y ∧ Linkable env.lower none true y := fun p hp => by
    have hp := reach_subs m false obj h.wf _ hp
    have hx := List.getElem?_eq_getElem (h.there p hp)
    exact ⟨_, hx, hu p _ hx hp, .inl rfl⟩
  obtain ⟨w, st', h1, h2, h3, h4⟩ := sub_links (env := env) (m := m) (scope := none) (fallback := true) (top := obj)
    (f := linkOf env.lower none true m) (expandE env (linkRepl env.lower none true obj) 1) obj (by
      refine ⟨h.wf, h.ok, h.noTuple, fun o ho => ⟨fun e => hnot o e.symm, ?_⟩⟩
      obtain ⟨y, hy, hl⟩ := hr o ho
      obtain ⟨s, i, e1, e2, _⟩ := linkOf_ok hy hl
      exact ⟨y, s, i, hy, e1, e2⟩) { visited := [], mem := m } rfl (Vis.nil _)
  have hno : ∀ o, V.ref o ∉ w.subs := fun o => noRef_subs w h4.clean.wf h4.clean.noRef o
  have hal : alike (LinkTo env.lower m) SameLink obj w := linked h.wf h.noTuple (fun p hp => by
    obtain ⟨y, hy, hl⟩ := hr p hp
    obtain ⟨s, i, _, e2, e3⟩ := linkOf_ok hy hl
    exact ⟨s, i, e2, e3⟩) h4.clean h4.eq
  have hnest : ∀ o, ¬ Nested m w o := by
    rintro o (ho | ⟨q, hq, _⟩)
    · exact hno o ho
    · exact hno q hq
  have hC : Copyable env m w := ⟨h.graph.typed, fun o ho => absurd ho (hnest o), h4.clean.wf, h4.clean.noTuple, h4.clean.ok, fun o x _ ho => absurd ho (hnest o)⟩
  have ht : rawDumps m w = .ok (tree .ref w) := enc_tree _ _ w h4.clean.wf h4.clean.noRef
  refine ⟨w, tree .ref w, ?_, ht, ?_⟩
  · unfold substituteLinks substitute
    simp only [h1, h2]
  · intro m0 hm0
    obtain ⟨u, m', ψ, e1, _, _, _, e5, _⟩ := C57_raw_copy_partial hC ht hm0
    have e : readLink env false { mem := m0, index := [] } = V.link := by
      funext s i; simp [readLink, loadLink]
    have hd := dec_tree env false { mem := m0, index := [] } .ref .ref w h4.clean.wf h4.clean.noRef (by
      rw [e]
      exact okV_tr env m m0 .ref .link w h4.clean.wf h4.clean.ok ⟨fun o ho => absurd ho (hno o), fun s i _ => ⟨s, i, rfl⟩⟩)
    have : m' = m0 := by
      unfold rawLoads at e1
      rw [hd] at e1
      cases e1
      rfl
    subst this
    exact ⟨u, e1, alike_comp (link_comp (lower := env.lower) (m := m) (ψ := ψ)).1 (link_comp (lower := env.lower) (m := m) (ψ := ψ)).2 obj w u hal e5, noRef_copy h4.clean.wf e5 hno⟩

/-- an entity -/
theorem thin_entity {o : Nat} (ho : Reachable m false obj (.ref o)) : ∃ x y t, m[o]? = some x ∧ substituteLinks env none true m (.ref o) = .ok (.ref m.length, m ++ [y]) ∧
    rawDumps (m ++ [y]) (.ref m.length) = .ok t ∧
    ∀ m0, WellTyped env m0 → ∃ z, rawLoads env m0 t = .ok (.ref m0.length, m0 ++ [z]) ∧ Copied env.lower m x (m0 ++ [z]) z := by
  have hx := List.getElem?_eq_getElem (h.there o ho)
  have hready := h.graph.ready hu hx ho
  obtain ⟨y, h1, hc⟩ := strip_copied env m none true h.graph.typed o _ hx hready.plain (fun f hf p hp => by
    obtain ⟨a, y, b, c⟩ := hready.refs f hf p hp
    exact ⟨a, y, b, c, .inl rfl⟩)
  have hcopied := hc.copied (Grows.append m [y]) hready.plain (h.graph.links hu hx ho)
  obtain ⟨_, _, hclean⟩ := hc.attrs (Grows.append m [y]) hready.plain
  have hy : (m ++ [y])[m.length]? = some y := by simp
  have hin : ∀ p, Nested (m ++ [y]) (.ref m.length) p → p = m.length := by
    have hold : ∀ p, ¬ Holds (m ++ [y]) m.length p := by
      rintro p ⟨x', hx', e, he, hp⟩
      rw [hy] at hx'
      cases hx'
      exact hcopied.2.2.2.2 e he p hp
    rintro p (hp | ⟨q, hq, hi⟩)
    · simpa [V.subs] using hp
    · have : q = m.length := by simpa [V.subs] using hq
      subst this
      obtain ⟨r, hr, _⟩ := hi.head
      exact absurd hr (hold r)
  have hT := hc.wellTyped h.graph.typed
  have hC : Copyable env (m ++ [y]) (.ref m.length) := ⟨hT, fun p hp => by rw [hin p hp]; simp, by simp [Json.wf], by simp [Json.noTuple], by simp [okV], by
    intro p x' hx' hp e he
    rw [hin p hp, hy] at hx'
    cases hx'
    have := hclean e.2 (List.mem_map_of_mem he)
    exact ⟨this.wf, this.noTuple⟩⟩
  have ht : rawDumps (m ++ [y]) (.ref m.length) = .ok (recordTree (m ++ [y]) y) := by
    unfold rawDumps
    simp only [enc]
    exact enc_copy hready.plain hc hy _
  refine ⟨_, y, _, hx, h1, ht, ?_⟩
  intro m0 hm0
  obtain ⟨u, m', ψ, e1, e2, e3, e4, e5, e6⟩ := C57_raw_copy_partial hC ht hm0
  obtain ⟨fs, hfs, n1, n2, n3⟩ := asDict_names hT hy
  have hlen : u = .ref m0.length ∧ m'.length = m0.length + 1 := by
    have hd := dec_record env false { mem := m0, index := [] } .ref (fun _ => .none) (Equal.typ y.cls) fs n1 n2 n3
      (fun e he => (hclean e.2 (by rw [hfs]; exact List.mem_map_of_mem (List.mem_cons_of_mem _ he))).wf)
      (fun e he => (hclean e.2 (by rw [hfs]; exact List.mem_map_of_mem (List.mem_cons_of_mem _ he))).noRef)
      (fun e he => by
        have hcl := hclean e.2 (by rw [hfs]; exact List.mem_map_of_mem (List.mem_cons_of_mem _ he))
        have e : readLink env false { mem := m0, index := [] } = V.link := by
          funext s i; simp [readLink, loadLink]
        rw [e]
        exact okV_tr env m m0 .ref .link _ hcl.wf hcl.ok ⟨fun o ho => absurd ho (noRef_subs _ hcl.wf hcl.noRef o), fun s i _ => ⟨s, i, rfl⟩⟩)
    unfold rawLoads recordTree at e1
    rw [hfs, List.tail_cons, hd] at e1
    obtain ⟨t1, t2, t3⟩ := typ_entity y.cls
    simp only [loadAs, if_neg t1, t2, t3] at e1
    split at e1
    · cases e1
    · rename_i hf
      split at hf
      · cases hf
      · rename_i q mm hq
        cases hf
        cases e1
        obtain ⟨a, b, _⟩ := fromDictE_out hq
        exact ⟨by rw [a], b⟩
  obtain ⟨rfl, hlen⟩ := hlen
  have hz : m'[m0.length]? = some (m'[m0.length]'(by omega)) := List.getElem?_eq_getElem (by omega)
  generalize m'[m0.length]'(by omega) = z at hz
  have hm' : m' = m0 ++ [z] := by
    apply List.ext_getElem?
    intro i
    rcases Nat.lt_trichotomy i m0.length with hi | rfl | hi
    · rw [e2 i hi, List.getElem?_append_left hi]
    · rw [hz]; simp
    · rw [List.getElem?_eq_none (by omega), List.getElem?_eq_none (by simp; omega)]
  subst hm'
  obtain ⟨x', hx', c1, c2, c3, c4⟩ := e4 m0.length z (Nat.le_refl _) hz
  have hψ := hin _ (e3 m0.length (Nat.le_refl _) (by simp))
  rw [hψ, hy] at hx'
  cases hx'
  obtain ⟨d1, d2, d3, d4, d5⟩ := hcopied
  refine ⟨z, e1, c1.trans d1, ?_, c2.trans d3, alikes_comp (link_comp (lower := env.lower) (m := m) (ψ := ψ)).1 (link_comp (lower := env.lower) (m := m) (ψ := ψ)).2 _ _ _ d4 c3, ?_⟩
  · have := (alikes_nth c3 1 (by simp [asDict]) (by simp [asDict]))
    exact (alike_uids_perm this).trans d2
  · intro f hf p hp
    obtain ⟨q, hq, _⟩ := alikes_ref _ _ ((wfs_iff _).2 (fun v hv => (hclean v hv).wf)) c3 p (mem_subss.2 ⟨f.2, List.mem_map_of_mem hf, hp⟩) (fun o w ⟨p, e, _⟩ => ⟨p, e⟩)
    obtain ⟨v, hv, hq⟩ := mem_subss.1 hq
    obtain ⟨e, he, rfl⟩ := List.mem_map.1 hv
    exact d5 e he q hq
end

/-- **C59.** `thin_dumps(obj)` succeeds; it gives an id to each entity in reach that has none (`Numbered`), and changes nothing else about what exists. `raw_loads` of
what it wrote, into any memory, changes nothing that exists and gives a `ThinCopy`: an entity is read as a single new one, of its class, with its ids and attributes,
and with links in place of the entities it points to, each to an id of that entity; for other values, links replace entities everywhere.
Partial: no tuples (they come back as lists), no dictionary key `type`, and entities occur only in attributes meant to hold them (`Flattenable`). -/
theorem C59_thin_partial (env : Env) (m : Mem) (obj : V) (scope : String) (gen : Nat → String) (drawn : Nat) (h : Thinnable env m obj) (hsc : scope ≠ "type") :
    ∃ n m1 t M, (∀ n' ≥ n, thinDumps env scope gen n' m drawn obj = some (.ok (t, M))) ∧ Numbered scope m m1 obj ∧ Extends m1 M ∧
      ∀ m0, WellTyped env m0 → ∃ u m', rawLoads env m0 t = .ok (u, m') ∧ Extends m0 m' ∧ ThinCopy env.lower m1 obj m0 u m' := by
  obtain ⟨n, m1, c1, h1, h2⟩ := numbered scope gen drawn h.graph.flat
  have hT : Thinnable env m1 obj := ⟨h2.flattenable hsc h.graph, fun o ho => by
    have hlt := h.there o ((reachable_congr h2.same).1 ho)
    obtain ⟨y, hy, _⟩ := h2.uids o _ (List.getElem?_eq_getElem hlt)
    exact (List.getElem?_eq_some_iff.1 hy).1, h.wf, h.noTuple, okV_grows (same_grows h2.same) obj h.ok⟩
  by_cases hr : ∃ o, obj = .ref o
  · obtain ⟨o, rfl⟩ := hr
    obtain ⟨x, y, t, k1, k2, k3, k4⟩ := thin_entity hT h2.all (.refl _)
    refine ⟨n, m1, t, m1 ++ [y], fun n' hn' => ?_, h2, ⟨[y], rfl⟩, fun m0 hm0 => ?_⟩
    · simp only [thinDumps, h1 n' hn', k2, k3]
    · obtain ⟨z, e1, e2⟩ := k4 m0 hm0
      exact ⟨_, _, e1, ⟨[z], rfl⟩, x, z, k1, rfl, rfl, e2⟩
  · obtain ⟨w, t, k1, k2, k3⟩ := thin_value hT h2.all (fun o e => hr ⟨o, e⟩)
    refine ⟨n, m1, t, m1, fun n' hn' => ?_, h2, .refl _, fun m0 hm0 => ?_⟩
    · simp only [thinDumps, h1 n' hn', k1, k2]
    · obtain ⟨u, e1, e2, e3⟩ := k3 m0 hm0
      refine ⟨u, m0, e1, .refl _, ?_⟩
      cases obj with
      | ref o => exact absurd ⟨o, rfl⟩ hr
      | _ => exact ⟨rfl, e2, e3⟩

/-- the hypotheses are met by an entity of the sample of C43 that points to others and is pointed to -/
example : ∃ n m1 t M, (∀ n' ≥ n, thinDumps plainEnv "auto" xs n' trip 0 (.ref 4) = some (.ok (t, M))) ∧ Numbered "auto" trip m1 (.ref 4) ∧ Extends m1 M ∧
    ∀ m0, WellTyped plainEnv m0 → ∃ u m', rawLoads plainEnv m0 t = .ok (u, m') ∧ Extends m0 m' ∧ ThinCopy plainEnv.lower m1 (.ref 4) m0 u m' := by
  obtain ⟨h1, h2, h3, _⟩ := trip_meets
  exact C59_thin_partial plainEnv trip (.ref 4) "auto" xs 0 ⟨h2, h3, by simp [Json.wf], by simp [Json.noTuple], by simp [okV]⟩ (by decide)

/-- C59 fails for tuples: they are read as lists -/
theorem C59_tuple_counterexample : ∃ n t M u m', thinDumps plainEnv "auto" xs n [] 0 (.tuple [.int 1]) = some (.ok (t, M)) ∧ rawLoads plainEnv [] t = .ok (u, m') ∧
    ¬ ThinCopy plainEnv.lower M (.tuple [.int 1]) [] u m' := by
  refine ⟨200, ?_⟩
  have key : ((thinDumps plainEnv "auto" xs 200 [] 0 (.tuple [.int 1])).any fun r => match r with
      | .ok (t, M) => (match rawLoads plainEnv [] t with
        | .ok (w, _) => decide (w = .list [.int 1])
        | _ => false)
      | .error _ => false) = true := by decide +kernel
  rw [Option.any_eq_true] at key
  obtain ⟨r, hr, key⟩ := key
  split at key
  · rename_i t M
    split at key
    · rename_i w m' hl
      simp only [decide_eq_true_eq] at key
      subst key
      refine ⟨t, M, _, m', hr, hl, ?_⟩
      rintro ⟨_, h, _⟩
      simp [alike] at h
    · cases key
  · cases key

end Verif.Substitute
