import Verif.Props.Reload
import Verif.Props.Forward
/-!
# Lemmas on copies: `raw_loads` of what `raw_dumps` wrote

Every entity in the text is built anew. The copies are numbered from the end of the memory on; a function says which entity each of
them is a copy of.
-/

set_option linter.unusedSimpArgs false
set_option linter.unusedVariables false
set_option linter.unusedSectionVars false

namespace Verif.Json
open Verif.Py Verif.Value Verif.Schema Verif.Substitute

/-! ## Values and their copies -/

/-- every copy renamed to what it is a copy of -/
def via (ψ : Nat → Nat) : V → V := tr (fun p => .ref (ψ p)) .link

/-- `u` is `v` with copies in place of the entities (up to the type of numbers, the order of dictionaries, tuples for lists) -/
def Img (ψ : Nat → Nat) (v u : V) : Prop := nf (via ψ u) = nf v

theorem sortDict_dict (ks vs : List V) : ∃ ks' vs', sortDict ks vs = .dict ks' vs' := by
  unfold sortDict
  cases strings ks with
  | none => exact ⟨_, _, rfl⟩
  | some names => exact ⟨_, _, rfl⟩

theorem noRef_via (ψ : Nat → Nat) {u : V} (h : scalar u = true) : via ψ u = u := tr_scalar _ _ h

theorem via_scalar {ψ : Nat → Nat} {v u : V} (h : Img ψ v u) (hv : scalar v = true) : scalar u = true := by
  unfold Img via at h
  cases u with
  | dict ks vs =>
    exfalso
    simp only [tr] at h
    obtain ⟨ks', vs', e⟩ := sortDict_dict ks (trs (fun p => V.ref (ψ p)) .link vs)
    rw [e] at h
    simp only [nf, cn, tr] at h
    obtain ⟨ks2, vs2, e2⟩ := sortDict_dict ks' (trs .ref .link (cns vs'))
    rw [e2] at h
    cases v <;> simp [scalar] at hv <;> simp [cn, tr] at h
  | _ => first | rfl | (exfalso; cases v <;> simp [scalar] at hv <;> simp [nf, cn, tr] at h)

/-- the entities in a value: the copies are of the same class and have the same bounds -/
def Faith (M mem : Mem) (ψ : Nat → Nat) (u : V) : Prop := ∀ p, V.ref p ∈ u.subs →
  ∃ z x, mem[p]? = some z ∧ M[ψ p]? = some x ∧ z.cls = x.cls ∧ Dict.get? z.fields "_bounds" = Dict.get? x.fields "_bounds"

theorem Faith.sub {M mem : Mem} {ψ : Nat → Nat} {u w : V} (h : Faith M mem ψ u) (hw : w ∈ u.subs) : Faith M mem ψ w :=
  fun p hp => h p (subs_trans u w hw _ hp)

theorem Faith.compat {M mem : Mem} {ψ : Nat → Nat} {u : V} (h : Faith M mem ψ u) : Compat mem M (fun p => .ref (ψ p)) .link u := by
  refine ⟨fun p hp => .inr ⟨ψ p, rfl, ?_⟩, fun s i _ => ⟨s, i, rfl⟩⟩
  intro z hz
  obtain ⟨z', x, h1, h2, h3, h4⟩ := h p hp
  rw [hz] at h1
  cases h1
  exact ⟨x, h2, h3.symm, fun b hb => by rw [← h4]; exact hb⟩

theorem plain_mem (env : Env) (m m' : Mem) {k : Kind} (hk : plainKind k = true) (v : V) : conv env m k v = conv env m' k v := by
  cases k <;> simp [plainKind] at hk <;> rfl

theorem isTyp_via {ψ : Nat → Nat} {u : V} {ts : List String} (h : isTyp ts (via ψ u) = true) : isTyp ts u = true := by
  unfold via at h
  cases u <;> simp [tr, isTyp] at h ⊢
  · rename_i ks vs
    obtain ⟨_, _, e⟩ := sortDict_dict ks (trs (fun p => V.ref (ψ p)) .link vs)
    rw [e] at h
    simp at h
  · exact h

theorem via_none {ψ : Nat → Nat} {u : V} (h : via ψ u = .none) : u = .none := by
  unfold via at h
  cases u <;> simp [tr] at h ⊢
  rename_i ks vs
  obtain ⟨_, _, e⟩ := sortDict_dict ks (trs (fun p => V.ref (ψ p)) .link vs)
  rw [e] at h
  simp at h

theorem via_list {ψ : Nat → Nat} {u : V} {l : List V} (ht : noTuple u) (h : via ψ u = .list l) : ∃ us, u = .list us ∧ us.map (via ψ) = l := by
  unfold via at h
  cases u <;> simp [tr] at h
  · rename_i us
    exact ⟨us, rfl, by rw [← h, trs_eq]; rfl⟩
  · simp [noTuple] at ht
  · rename_i ks vs
    obtain ⟨_, _, e⟩ := sortDict_dict ks (trs (fun p => V.ref (ψ p)) .link vs)
    rw [e] at h
    simp at h

theorem isLink_via {ψ : Nat → Nat} {u : V} (h : isLink (via ψ u) = true) : isLink u = true := by
  unfold via at h
  cases u <;> simp [tr, isLink] at h ⊢
  rename_i ks vs
  obtain ⟨_, _, e⟩ := sortDict_dict ks (trs (fun p => V.ref (ψ p)) .link vs)
  rw [e] at h
  simp at h

theorem via_ref {ψ : Nat → Nat} {u : V} {o : Nat} (h : via ψ u = .ref o) : ∃ p, u = .ref p ∧ ψ p = o := by
  unfold via at h
  cases u <;> simp [tr] at h
  · rename_i ks vs
    obtain ⟨_, _, e⟩ := sortDict_dict ks (trs (fun p => V.ref (ψ p)) .link vs)
    rw [e] at h
    simp at h
  · exact ⟨_, rfl, h⟩

theorem isCls_via {M mem : Mem} {ψ : Nat → Nat} {u : V} {cs : List ECls} (hf : Faith M mem ψ u) (h : isCls M cs (via ψ u) = true) : isCls mem cs u = true := by
  cases e : via ψ u <;> rw [e] at h <;> simp [isCls] at h
  obtain ⟨p, rfl, rfl⟩ := via_ref e
  obtain ⟨z, x, h1, h2, h3, _⟩ := hf p (self_mem_subs _)
  rw [h2] at h
  simp only [isCls, h1, h3]
  simpa using h

theorem allows_via {env : Env} {M mem : Mem} {ψ : Nat → Nat} {a b : V} (hf : Faith M mem ψ a) (h : allows env M (via ψ a) b = true) :
    allows env mem a b = true := by
  cases a <;> try rfl
  rename_i p
  obtain ⟨z, x, h1, h2, _, h4⟩ := hf p (self_mem_subs _)
  simp only [via, tr, allows, h2] at h
  simp only [allows, h1, h4]
  exact h

theorem pair_via {env : Env} {M mem : Mem} {ψ : Nat → Nat} {p : V} (hf : Faith M mem ψ p) (ht : noTuple p) (ho : okV env mem p)
    (h : PairOk env M (via ψ p)) : PairOk env mem p := by
  obtain ⟨a, b, e, ha, hb⟩ := h
  obtain ⟨us, rfl, hus⟩ := via_list ht e
  match us, hus with
  | [a', b'], hus =>
    simp only [List.map_cons, List.map_nil, List.cons.injEq, and_true] at hus
    obtain ⟨rfl, rfl⟩ := hus
    have fa : Faith M mem ψ a' := hf.sub (list_mem_subs (by simp))
    refine ⟨a', b', rfl, ha.imp isLink_via (isCls_via fa), hb.imp via_none ?_⟩
    rintro ⟨h1, h2⟩
    have hb' := isTyp_via h1
    simp only [okV, okVs] at ho
    have e : via ψ b' = b' := tr_bounds env mem _ _ b' hb' ho.2.1
    rw [e] at h2
    exact ⟨hb', allows_via fa h2⟩
  | [], hus => simp at hus
  | [_], hus => simp at hus
  | _ :: _ :: _ :: _, hus => simp at hus

theorem wf_via {ψ : Nat → Nat} {u : V} (h : wf u) : wf (via ψ u) :=
  wf_tr _ _ u h (fun _ _ => trivial) (fun _ _ _ => trivial)

theorem noTuple_via {ψ : Nat → Nat} {u : V} (h : wf u) : noTuple (via ψ u) :=
  noTuple_tr _ _ u h (fun _ _ => trivial) (fun _ _ _ => trivial)

/-- what a setter keeps with the entities it keeps with their copies -/
theorem conv_via (env : Env) (M mem : Mem) (k : Kind) (hr : rangeOk k) (ψ : Nat → Nat) (u : V) (hw : wf u) (ht : noTuple u) (ho : okV env mem u)
    (hf : Faith M mem ψ u) (hp : ¬ plainKind k = true) (h : conv env M k (via ψ u) = .ok (via ψ u)) : conv env mem k u = .ok u := by
  cases k <;> simp [plainKind] at hp <;> simp only [conv] at h ⊢
  · -- probabilities
    cases u with
    | dict ks vs =>
      simp only [wf] at hw
      obtain ⟨⟨hl, names, hs, _⟩, _⟩ := hw
      have hl' : names.length = vs.length := by rw [← hl, strings_eq hs]; simp
      simp only [via, tr, sortDict, hs, mkDict, convProbabilities] at h
      have hp := (sortFields_perm (names.zip (trs (fun p => V.ref (ψ p)) .link vs))).map Prod.snd
      rw [List.map_snd_zip (by rw [trs_eq]; simp; omega)] at hp
      rw [total_perm hp] at h
      have tot : ∀ (l : List V) (q : Rat), total (trs (fun p => V.ref (ψ p)) .link l) = some q → total l = some q := by
        intro l
        induction l with
        | nil => intro q h; simpa [trs] using h
        | cons v vs ih =>
          intro q h
          simp only [trs, total] at h ⊢
          split at h
          · rename_i a b ha hb
            have : num v = some a := by
              cases v <;> simp [tr, num] at ha ⊢
              all_goals first | exact ha | skip
              rename_i ks' vs'
              obtain ⟨_, _, e⟩ := sortDict_dict ks' (trs (fun p => V.ref (ψ p)) .link vs')
              rw [e] at ha
              simp at ha
            rw [this, ih b hb]
            exact h
          · cases h
      split at h
      · rename_i q hq
        simp only [convProbabilities, tot vs q hq]
        split at h
        · cases h
        · rename_i hle
          rw [if_neg hle, if_pos]
          rw [strings_eq hs]; simp [isStr]
      · cases h
    | str s => simp [via, tr, convProbabilities] at h
    | none => rfl
    | _ => simp [via, tr, convProbabilities] at h
  · -- quantities
    cases u with
    | dict ks vs => rfl
    | list l => cases l <;> simp [via, tr, trs, convQuantities] at h
    | _ => simp [via, tr, trs, convQuantities] at h <;> exact absurd ht (by simp [noTuple])
  · unfold convObj at h ⊢
    split at h
    · cases h
    · rename_i hn
      split at h
      · rename_i hts
        have := isTyp_via hts
        rw [if_neg (by rintro rfl; simp [isTyp] at this), if_pos this]
      · cases h
  · unfold convOptObj at h ⊢
    split at h
    · rename_i hn
      rw [if_pos (via_none hn)]
      rw [via_none hn]
    · rename_i hn
      split at h
      · rename_i hts
        have := isTyp_via hts
        rw [if_neg (by rintro rfl; simp [isTyp] at this), if_pos this]
      · cases h
  · rename_i ts
    unfold convList at h
    split at h
    · rename_i hall
      injection h with h
      obtain ⟨us, rfl, hus⟩ := via_list ht h.symm
      have e : members (.list us) = us := rfl
      unfold convList
      rw [e, if_pos]
      rw [List.all_eq_true] at hall ⊢
      intro v hv
      apply isTyp_via (ψ := ψ)
      apply hall
      rw [← hus]
      exact List.mem_map.2 ⟨v, hv, rfl⟩
    · cases h
  · unfold convTarget at h ⊢
    split at h
    · rename_i hc
      rw [if_pos]
      exact hc.imp via_none (fun h => h.imp isLink_via (isCls_via hf))
    · cases h
  · obtain ⟨l, e, hl⟩ := convRanges_out env M _ hr _ _ h
    obtain ⟨us, rfl, hus⟩ := via_list ht e
    apply convRanges_self
    intro p hp
    simp only [noTuple, okV] at ht ho
    rw [noTuples_iff] at ht
    rw [okVs_iff] at ho
    exact pair_via (hf.sub (list_mem_subs hp)) (ht p hp) (ho p hp) (hl _ (by rw [← hus]; exact List.mem_map.2 ⟨p, hp, rfl⟩))

/-- what a setter keeps with the entities it accepts with their copies, and stores it or the former -/
theorem conv_img (env : Env) (M mem : Mem) (k : Kind) (hr : rangeOk k) (ψ : Nat → Nat) (v u : V) (h : Img ψ v u) (hwv : wf v) (hwu : wf u)
    (htu : noTuple u) (hov : okV env M v) (hou : okV env mem u) (hf : Faith M mem ψ u) (hv : conv env M k v = .ok v) :
    ∃ w, conv env mem k u = .ok w ∧ (w = u ∨ w = v ∧ plainKind k = true) := by
  have hot : okV env M (via ψ u) := okV_tr env mem M _ _ u hwu hou hf.compat
  by_cases hp : plainKind k = true
  · refine ⟨v, ?_, .inr ⟨rfl, hp⟩⟩
    have := plain_sim env M k hp (via ψ u) v (noTuple_via hwu) h hv
    have e : via ψ u = u := by
      rcases plain_out env M k hp v v hv with hs | ⟨l, rfl, hl⟩
      · exact noRef_via ψ (via_scalar h hs)
      · unfold Img at h
        rw [nf_list] at h
        obtain ⟨us, e, hus⟩ := nf_list_inv (noTuple_via hwu) h
        obtain ⟨us', rfl, rfl⟩ := via_list htu e
        rw [e]
        congr 1
        have : ∀ u ∈ us', via ψ u = u := by
          intro u hu
          obtain ⟨i, hi, rfl⟩ := List.getElem_of_mem hu
          have hl' : us'.length = l.length := by simpa using congrArg List.length hus
          have := map_nth hus i (by simpa using hi) (by omega)
          simp only [List.getElem_map] at this
          exact noRef_via ψ (via_scalar (v := l[i]'(by omega)) this (hl _ (List.getElem_mem _)))
        rw [List.map_congr_left (g := id) this]
        simp
    rw [e] at this
    rw [plain_mem env mem M hp]
    exact this
  · exact ⟨u, conv_via env M mem k hr ψ u hwu htu hou hf hp (conv_sim_other env M k hr _ v h hwv (wf_via hwu) (noTuple_via hwu) hov hot hv hp), .inl rfl⟩

/-! ## Renaming with another function -/

section
variable {f f' : Nat → V} {g : String → String → V}
mutual
theorem tr_congr (v : V) (h : ∀ o, V.ref o ∈ v.subs → f o = f' o) : tr f g v = tr f' g v := by
  cases v with
  | list l => simp only [tr]; rw [trs_congr l (fun o ho => h o (by simp [V.subs, ho]))]
  | tuple l => simp only [tr]; rw [trs_congr l (fun o ho => h o (by simp [V.subs, ho]))]
  | dict ks vs => simp only [tr]; rw [trs_congr vs (fun o ho => h o (by simp [V.subs, ho]))]
  | obj t ns vs => simp only [tr]; rw [trs_congr vs (fun o ho => h o (by simp [V.subs, ho]))]
  | ref o => simp only [tr]; exact h o (by simp [V.subs])
  | _ => simp only [tr]
termination_by structural v
theorem trs_congr (l : List V) (h : ∀ o, V.ref o ∈ subss l → f o = f' o) : trs f g l = trs f' g l := by
  cases l with
  | nil => rfl
  | cons v vs =>
    simp only [trs]
    rw [tr_congr v (fun o ho => h o (by simp [subss, ho])), trs_congr vs (fun o ho => h o (by simp [subss, ho]))]
termination_by structural l
end
end

theorem via_congr {ψ ψ' : Nat → Nat} {u : V} (h : ∀ p, V.ref p ∈ u.subs → ψ' p = ψ p) : via ψ' u = via ψ u :=
  tr_congr u (fun o ho => by rw [h o ho])

theorem Img.congr {ψ ψ' : Nat → Nat} {v u : V} (h : Img ψ v u) (e : ∀ p, V.ref p ∈ u.subs → ψ' p = ψ p) : Img ψ' v u := by
  unfold Img at h ⊢
  rw [via_congr e]
  exact h

/-! ## The invariant -/

/-- `u` stands for `v` in the memory `mem`; the copies have numbers from `base` on -/
structure Good (env : Env) (mem : Mem) (base : Nat) (ψ : Nat → Nat) (v u : V) : Prop where
  img : Img ψ v u
  wf : wf u
  noTuple : noTuple u
  ok : okV env mem u
  refs : ∀ p, V.ref p ∈ u.subs → base ≤ p ∧ p < mem.length

/-- `z`, with number `p`, is a copy of `x`: its `as_dict` is the same, with copies in place of entities -/
structure Twin (M mem : Mem) (base p : Nat) (ψ : Nat → Nat) (z x : EObj) : Prop where
  cls : z.cls = x.cls
  bounds : Dict.get? z.fields "_bounds" = Dict.get? x.fields "_bounds"
  spec : x.cls = .ingredientSpec → Dict.get? z.fields "_name" = Dict.get? x.fields "_name" ∧ Dict.get? z.fields "_labels" = Dict.get? x.fields "_labels"
  names : (asDict mem z).map Prod.fst = (asDict M x).map Prod.fst
  fields : ∀ f ∈ asDict M x, ∃ u, (f.1, u) ∈ asDict mem z ∧ Img ψ f.2 u
  plain : ∀ g ∈ asDict mem z, wf g.2 ∧ noTuple g.2 ∧ ∀ q, V.ref q ∈ g.2.subs → base ≤ q ∧ q < p

/-- the memory `m0` and after it copies of entities of `M` -/
structure Copies (env : Env) (M : Mem) (S : Nat → Prop) (m0 : Mem) (ψ : Nat → Nat) (mem : Mem) : Prop where
  typed : WellTyped env mem
  len : m0.length ≤ mem.length
  old : ∀ p, p < m0.length → mem[p]? = m0[p]?
  twin : ∀ p z, m0.length ≤ p → mem[p]? = some z → ∃ x, M[ψ p]? = some x ∧ S (ψ p) ∧ Twin M mem m0.length p ψ z x

/-- later -/
structure Ext (ψ : Nat → Nat) (mem : Mem) (ψ' : Nat → Nat) (mem' : Mem) : Prop where
  grows : Grows mem mem'
  len : mem.length ≤ mem'.length
  agree : ∀ p, p < mem.length → ψ' p = ψ p

theorem Ext.refl (ψ : Nat → Nat) (mem : Mem) : Ext ψ mem ψ mem := ⟨Grows.refl _, Nat.le_refl _, fun _ _ => rfl⟩

theorem Ext.trans {ψ ψ' ψ'' : Nat → Nat} {mem mem' mem'' : Mem} (h : Ext ψ mem ψ' mem') (h' : Ext ψ' mem' ψ'' mem'') : Ext ψ mem ψ'' mem'' :=
  ⟨h.grows.trans h'.grows, Nat.le_trans h.len h'.len, fun p hp => (h'.agree p (Nat.lt_of_lt_of_le hp h.len)).trans (h.agree p hp)⟩

theorem Good.ext {env : Env} {mem mem' : Mem} {base : Nat} {ψ ψ' : Nat → Nat} {v u : V} (h : Good env mem base ψ v u) (e : Ext ψ mem ψ' mem') :
    Good env mem' base ψ' v u :=
  ⟨h.img.congr (fun p hp => e.agree p (h.refs p hp).2), h.wf, h.noTuple, okV_grows e.grows u h.ok,
    fun p hp => ⟨(h.refs p hp).1, Nat.lt_of_lt_of_le (h.refs p hp).2 e.len⟩⟩

theorem Copies.faith {env : Env} {M m0 mem : Mem} {S : Nat → Prop} {ψ : Nat → Nat} (h : Copies env M S m0 ψ mem) {v u : V} (hg : Good env mem m0.length ψ v u) :
    Faith M mem ψ u := by
  intro p hp
  obtain ⟨h1, h2⟩ := hg.refs p hp
  obtain ⟨x, hx, _, ht⟩ := h.twin p mem[p] h1 (List.getElem?_eq_getElem h2)
  exact ⟨mem[p], x, List.getElem?_eq_getElem h2, hx, ht.cls, ht.bounds⟩

theorem plain_good (env : Env) (mem M : Mem) (base : Nat) (ψ : Nat → Nat) {k : Kind} (hk : plainKind k = true) {v : V} (hv : conv env M k v = .ok v) :
    Good env mem base ψ v v := by
  have e : via ψ v = v := plain_tr env M k hk _ _ v v hv
  refine ⟨by unfold Img; rw [e], ?_, ?_, ?_, fun p hp => absurd hp (plain_subs hk hv p)⟩
  all_goals rcases plain_out env M k hk v v hv with hs | ⟨l, rfl, hl⟩
  · exact (leaf_clean (env := env) (m := mem) (.inl hs)).wf
  · simp only [Json.wf]; rw [wfs_iff]; exact fun v h => (leaf_clean (env := env) (m := mem) (.inl (hl v h))).wf
  · exact (leaf_clean (env := env) (m := mem) (.inl hs)).noTuple
  · simp only [Json.noTuple]; rw [noTuples_iff]; exact fun v h => (leaf_clean (env := env) (m := mem) (.inl (hl v h))).noTuple
  · exact (leaf_clean (env := env) (m := mem) (.inl hs)).ok
  · simp only [okV]; rw [okVs_iff]; exact fun v h => (leaf_clean (env := env) (m := mem) (.inl (hl v h))).ok

/-- the setters accept a copy, and store one -/
theorem conv_good {env : Env} {M m0 mem : Mem} {S : Nat → Prop} {ψ : Nat → Nat} (hC : Copies env M S m0 ψ mem) {k : Kind} (hr : rangeOk k) {v u : V}
    (hg : Good env mem m0.length ψ v u) (hwv : wf v) (hov : okV env M v) (hv : conv env M k v = .ok v) :
    ∃ w, conv env mem k u = .ok w ∧ conv env mem k w = .ok w ∧ Good env mem m0.length ψ v w := by
  obtain ⟨w, h1, h2⟩ := conv_img env M mem k hr ψ v u hg.img hwv hg.wf hg.noTuple hov hg.ok (hC.faith hg) hv
  rcases h2 with rfl | ⟨rfl, hk⟩
  · exact ⟨w, h1, h1, hg⟩
  · exact ⟨w, h1, by rw [plain_mem env mem M hk]; exact hv, plain_good env mem M _ ψ hk hv⟩

/-! ## What a copy stores -/

theorem scalar_img {ψ : Nat → Nat} {v u : V} (h : Img ψ v u) (hv : scalar v = true) : nf u = nf v := by
  have := noRef_via ψ (via_scalar h hv)
  unfold Img at h
  rw [this] at h
  exact h

theorem nameLike_img {ψ : Nat → Nat} {v u : V} (hv : nameLike v) (h : Img ψ v u) : u = v := by
  have hs : scalar v = true := by
    rcases hv with rfl | hv
    · rfl
    · exact isStr_scalar hv
  refine nameLike_out (f := .ref) hv ?_
  rw [scalar_img h hs, tr_scalar _ _ hs]

theorem labelsLike_img {ψ : Nat → Nat} {v u : V} (hv : labelsLike v) (hw : wf u) (ht : noTuple u) (h : Img ψ v u) : u = v := by
  have e : via ψ u = v := by
    refine labelsLike_out (f := .ref) hv (noTuple_via hw) ?_
    rw [(labelsLike_clean (env := plainEnv) (m := []) hv).2]
    exact h
  rcases hv with rfl | ⟨l, rfl, hl⟩
  · exact via_none e
  · obtain ⟨us, rfl, hus⟩ := via_list ht e
    congr 1
    apply List.ext_getElem (by simpa using congrArg List.length hus)
    intro i h1 h2
    have e1 : via ψ us[i] = l[i] := by
      have := congrArg (fun l => l[i]?) hus
      simpa [h1, h2] using this
    refine nameLike_img (ψ := ψ) (.inr (hl _ (List.getElem_mem h2))) ?_
    unfold Img
    rw [e1]

/-- an argument whose kind is plain is stored as it was -/
theorem plain_eq {env : Env} {M mem : Mem} {ψ : Nat → Nat} {base : Nat} {k : Kind} (hk : plainKind k = true) {v w : V} (hv : conv env M k v = .ok v)
    (hw : conv env mem k w = .ok w) (hg : Good env mem base ψ v w) : w = v := by
  have e : via ψ w = w := plain_tr env mem k hk _ _ w w hw
  have h := hg.img
  unfold Img at h
  rw [e] at h
  rw [plain_mem env M mem hk] at hv
  have := plain_sim env mem k hk w v hg.noTuple h hv
  rw [hw] at this
  cases this
  rfl

/-- bounds are stored as they were -/
theorem bounds_img {env : Env} {M mem : Mem} {ψ : Nat → Nat} {base : Nat} {v w : V} (hb : isTyp boundsTypes v = true) (ho : okV env M v)
    (hg : Good env mem base ψ v w) : w = v := by
  have hi := hg.img
  unfold Img at hi
  have hw : isTyp boundsTypes w = true := by
    cases v <;> simp [isTyp] at hb
    rw [nf_obj] at hi
    obtain ⟨us, e, _⟩ := nf_obj_inv hi
    apply isTyp_via (ψ := ψ)
    rw [e]
    simpa [isTyp] using hb
  have e : via ψ w = w := tr_bounds env mem _ _ w hw hg.ok
  rw [e] at hi
  exact bounds_eq env M mem v w hb ho hg.ok hg.noTuple hi

theorem get?_zip_rel (as : List EArg) (vs us : List V) (hv : vs.length = as.length) (hu : us.length = as.length) (k : String)
    (h : ∀ i (h1 : i < as.length) (h2 : i < vs.length) (h3 : i < us.length), as[i].attr = k → us[i] = vs[i]) :
    Dict.get? ((as.map EArg.attr).zip us) k = Dict.get? ((as.map EArg.attr).zip vs) k := by
  induction as generalizing vs us with
  | nil => simp
  | cons a as ih =>
    cases vs with
    | nil => simp at hv
    | cons v vs =>
      cases us with
      | nil => simp at hu
      | cons u us =>
        simp only [List.map_cons, List.zip_cons_cons, Dict.get?]
        by_cases e : a.attr = k
        · rw [if_pos e, if_pos e]
          rw [show u = v from h 0 (by simp) (by simp) (by simp) e]
        · rw [if_neg e, if_neg e]
          refine ih vs us (by simpa using hv) (by simpa using hu) (fun i h1 h2 h3 e' => ?_)
          have := h (i + 1) (by simp; omega) (by simp; omega) (by simp; omega) (by simpa using e')
          rw [List.getElem_cons_succ, List.getElem_cons_succ] at this
          exact this

/-! ## Ids -/

theorem convUids_img {env : Env} {ψ : Nat → Nat} {us : List (String × String)} {u : V} (hc : clash env.lower (us.map Prod.fst) = false)
    (hw : wf u) (h : Img ψ (uidsDict us) u) : ∃ ps, convUids env u = .ok ps ∧ ps.Perm us := by
  unfold Img at h
  rw [uidsDict_eq, nf_mkDict] at h
  have hstr : onSnd nf (asFields us) = asFields us := by
    unfold onSnd asFields
    rw [List.map_map]
    apply List.map_congr_left
    intro p _
    simp [nf, cn, tr]
  rw [hstr] at h
  obtain ⟨ks, vs, names, e, hs, hfs⟩ := nf_dict_inv (wf_via hw) h
  cases u with
  | dict ks0 vs0 =>
    simp only [wf] at hw
    obtain ⟨⟨hl, names0, hs0, hnd, _⟩, hwv⟩ := hw
    have hp : (names0.zip (vs0.map (fun v => nf (via ψ v)))).Perm (asFields us) := by
      have h1 : via ψ (.dict ks0 vs0) = sortDict ks0 (vs0.map (via ψ)) := by
        unfold via
        simp only [tr]
        rw [trs_eq]
      rw [h1, nf_sortDict hs0] at h
      have h2 : sortFields (names0.zip ((vs0.map (via ψ)).map nf)) = sortFields (asFields us) := by
        have inj : ∀ a b : List (String × V), mkDict a = mkDict b → a = b := by
          intro a b hab
          simp only [mkDict, V.dict.injEq] at hab
          rw [← zip_fst_snd a, ← zip_fst_snd b, hab.2]
          congr 1
          have hh := congrArg (List.map (fun v : V => match v with | .str s => s | _ => "")) hab.1
          simpa [List.map_map, Function.comp_def] using hh
        exact inj _ _ h
      have h3 := (sortFields_perm (names0.zip ((vs0.map (via ψ)).map nf))).symm.trans ((h2 ▸ sortFields_perm (asFields us)))
      rw [List.map_map] at h3
      exact h3
    have hall : ∀ v ∈ vs0, ∃ s, v = V.str s := by
      intro v hv
      have hmem : nf (via ψ v) ∈ (names0.zip (vs0.map (fun v => nf (via ψ v)))).map Prod.snd := by
        rw [List.map_snd_zip (by simp; rw [← hl, strings_eq hs0]; simp)]
        exact List.mem_map.2 ⟨v, hv, rfl⟩
      rw [(hp.map Prod.snd).mem_iff] at hmem
      obtain ⟨f, hf, e⟩ := List.mem_map.1 hmem
      obtain ⟨q, hq, rfl⟩ := List.mem_map.1 hf
      simp only at e
      refine ⟨q.2, nameLike_img (ψ := ψ) (.inr rfl) ?_⟩
      unfold Img
      rw [← e]
      simp [nf, cn, tr]
    have hsame : names0.zip (vs0.map (fun v => nf (via ψ v))) = names0.zip vs0 := by
      congr 1
      conv => rhs; rw [← List.map_id vs0]
      apply List.map_congr_left
      intro v hv
      obtain ⟨s, rfl⟩ := hall v hv
      simp [via, nf, cn, tr]
    rw [hsame] at hp
    have hlen : names0.length = vs0.length := by
      rw [← hl, strings_eq hs0]; simp
    have hsp : stringPairs ks0 vs0 = some (asPairs (names0.zip vs0)) := by
      have := stringPairs_mkDict (names0.zip vs0) (by
        intro f hf
        obtain ⟨s, e⟩ := hall f.2 (List.of_mem_zip (a := f.1) (b := f.2) hf).2
        rw [e]; rfl)
      have e1 : (names0.zip vs0).map (fun f => V.str f.1) = ks0 := by
        have : (names0.zip vs0).map (fun f => V.str f.1) = ((names0.zip vs0).map Prod.fst).map V.str := by simp
        rw [this, List.map_fst_zip (by omega), strings_eq hs0]
      rw [e1, List.map_snd_zip (by omega)] at this
      exact this
    have hperm : (asPairs (names0.zip vs0)).Perm us := by
      have := hp.map (fun f : String × V => (f.1, match f.2 with | .str s => s | _ => ""))
      have e : (asFields us).map (fun f : String × V => (f.1, match f.2 with | .str s => s | _ => "")) = us := asPairs_asFields us
      rw [e] at this
      exact this
    refine ⟨asPairs (names0.zip vs0), ?_, hperm⟩
    simp only [convUids, hsp]
    rw [clash_perm env.lower ((hperm.map Prod.fst).symm) hc]
    rfl
  | _ => simp [via, tr] at e

theorem uids_img (ψ : Nat → Nat) {ps us : List (String × String)} (h : ps.Perm us) (hn : (us.map Prod.fst).Nodup) : Img ψ (uidsDict us) (uidsDict ps) := by
  have hp : (asFields ps).Perm (asFields us) := h.map _
  have e : ∀ us : List (String × String), onSnd nf (asFields us) = asFields us := by
    intro us
    unfold onSnd asFields
    rw [List.map_map]
    apply List.map_congr_left
    intro p _
    simp [nf, cn, tr]
  unfold Img via
  rw [tr_uids, nf_mkDict, ← onSnd_sort, sortFields_idem, e, uidsDict_eq, nf_mkDict, e]
  rw [sortFields_perm_eq _ _ hp]
  have : (asFields ps).map Prod.fst = ps.map Prod.fst := by simp [asFields]
  rw [this]
  exact (h.map Prod.fst).nodup_iff.2 hn

/-! ## Links back leave `as_dict` alone -/

/-- an entity after others may have been linked back to it -/
def Kept (y y' : EObj) : Prop := y' = y ∨ ∃ a ∈ backNames, ∃ f : V → V, y' = { y with fields := y.fields.map (fun g => if g.1 = a then (g.1, f g.2) else g) }

theorem Kept.get? {y y' : EObj} (h : Kept y y') {k : String} (hk : k ∉ backNames) : Dict.get? y'.fields k = Dict.get? y.fields k := by
  rcases h with rfl | ⟨a, ha, f, rfl⟩
  · rfl
  · exact get?_map_other _ _ _ _ (fun e => hk (e ▸ ha))

theorem Kept.cls {y y' : EObj} (h : Kept y y') : y'.cls = y.cls := by
  rcases h with rfl | ⟨a, ha, f, rfl⟩ <;> rfl

theorem linkBack_kept (mem : Mem) (o base : Nat) (z : EObj) (hb : ∀ there back, backRef z.cls = some (there, back) → ∀ q, Dict.get? z.fields there = some (.ref q) → base ≤ q)
    {p : Nat} {y : EObj} (h : mem[p]? = some y) : ∃ y', (linkBack mem o z)[p]? = some y' ∧ Kept y y' ∧ (p < base → y' = y) := by
  unfold linkBack
  split
  · rename_i there back e
    split
    · rename_i q hq
      rw [setField_at, h]
      simp only [Option.map_some, Option.some.injEq, exists_eq_left']
      by_cases e' : p = q
      · rw [if_pos e']
        refine ⟨.inr ⟨back, backRef_names e, _, rfl⟩, fun hp => ?_⟩
        have := hb there back e q hq
        omega
      · rw [if_neg e']
        exact ⟨.inl rfl, fun _ => rfl⟩
    · exact ⟨y, h, .inl rfl, fun _ => rfl⟩
  · exact ⟨y, h, .inl rfl, fun _ => rfl⟩

/-- the entity with number `p` is somewhere -/
theorem spec_in {env : Env} {m : Mem} {x : EObj} {vals : List V} {own : List (String × V)} (hs : Shape env m x vals own) (hc : x.cls = .ingredientRun) :
    ∃ i, ∃ (h1 : i < (eargs x.cls).length) (h2 : i < vals.length), (eargs x.cls)[i].attr = "_spec" ∧ Dict.get? x.fields "_spec" = some vals[i] ∧
      ∀ p, vals[i] = .ref p → p < m.length := by
  have hk : ∃ a ∈ eargs x.cls, a.attr = "_spec" := by rw [hc]; decide +kernel
  obtain ⟨a, v, hz, ha, hg⟩ := get?_arg hs.len own hk
  rw [← hs.fields] at hg
  obtain ⟨i, hi, e⟩ := List.getElem_of_mem hz
  simp only [List.length_zip] at hi
  rw [List.getElem_zip] at e
  cases e
  refine ⟨i, by omega, by omega, ha, hg, fun p hp => ?_⟩
  have hcv := hs.conv _ hz
  have hkind : ∀ a ∈ eargs .ingredientRun, a.attr = "_spec" → (match a.kind with | .target _ => true | _ => false) = true := by decide +kernel
  have hm := (List.of_mem_zip hz).1
  have := hkind _ (hc ▸ hm) ha
  cases e : (eargs x.cls)[i].kind <;> simp [e] at this
  simp only [e, hp, conv] at hcv
  simp only [convTarget] at hcv
  split at hcv
  · rename_i h'
    rcases h' with h' | h' | h'
    · cases h'
    · simp [isLink] at h'
    · obtain ⟨y, hy, _⟩ := isCls_ref h'
      exact (List.getElem?_eq_some_iff.1 hy).1
  · cases hcv

/-- what is linked back is not part of `as_dict` -/
theorem asDict_kept {env : Env} {m m' : Mem} (hm : WellTyped env m) (hk : ∀ (p : Nat) (y : EObj), m[p]? = some y → ∃ y', m'[p]? = some y' ∧ Kept y y') {x x' : EObj}
    {p : Nat} (hx : m[p]? = some x) (h : Kept x x') : asDict m' x' = asDict m x := by
  obtain ⟨vals, own, hs, hown⟩ := hm p x hx
  have key : ∃ own', Shape env m x' vals own' ∧ (x.cls = .ingredientRun → own' = own) := by
    rcases h with rfl | ⟨a, ha, f, rfl⟩
    · exact ⟨own, hs, fun _ => rfl⟩
    · refine ⟨_, hs.set ha f, fun hc => ?_⟩
      obtain ⟨n, l, rfl, _⟩ := hown hc
      have h1 : "_name" ≠ a := by intro e; subst e; revert ha; decide
      have h2 : "_labels" ≠ a := by intro e; subst e; revert ha; decide
      simp [h1, h2]
  obtain ⟨own', hs', he⟩ := key
  rw [asDict_eq hs', asDict_eq hs, h.cls]
  have hu : x'.uids = x.uids := by rcases h with rfl | ⟨a, ha, f, rfl⟩ <;> rfl
  rw [hu]
  congr 3
  unfold ingredientPart
  rw [h.cls]
  split
  · rename_i hc
    rw [he hc]
    apply List.map_congr_left
    intro f _
    congr 1
    unfold getattr
    rw [h.cls]
    split
    · rename_i hf
      obtain ⟨i, i1, i2, _, hsp, hlt⟩ := spec_in hs hc
      rw [h.get? (by decide), hsp]
      cases e : vals[i] with
      | ref q =>
        have hq := hlt q e
        obtain ⟨y', hy', hky⟩ := hk q m[q] (List.getElem?_eq_getElem hq)
        simp only [List.getElem?_eq_getElem hq, hy', hky.cls]
        split
        · rw [hky.get? (by rcases hf.2 with e | e <;> rw [e] <;> decide)]
        · rfl
      | _ => rfl
    · rfl
  · rfl

/-! ## Building one copy -/

/-- the copies, with one more -/
def upd (ψ : Nat → Nat) (p o : Nat) : Nat → Nat := fun q => if q = p then o else ψ q

theorem zip_getD (c : ECls) (d : List (String × V)) : ∀ p ∈ (eargs c).zip ((eargs c).map (fun a => (Dict.get? d a.name).getD .none)),
    p.2 = (Dict.get? d p.1.name).getD .none := by
  intro p hp
  rw [List.zip_map_right] at hp
  obtain ⟨q, hq, rfl⟩ := List.mem_map.1 hp
  have : q.1 = q.2 := by
    rw [List.zip_eq_zipWith] at hq
    obtain ⟨i, hi, rfl⟩ := List.getElem_of_mem hq
    simp
  simp [this]

theorem one_spec : ∀ i j : Fin (eargs .ingredientRun).length, (eargs .ingredientRun)[i].attr = "_spec" → (eargs .ingredientRun)[j].attr = "_spec" → j = i := by
  decide +kernel

theorem getattr_copy {M mem' : Mem} {ψ : Nat → Nat} {x z : EObj} {v w : V} {a : String} (ha : a = "_name" ∨ a = "_labels") (n : V) (hc : z.cls = x.cls)
    (hv : Dict.get? x.fields "_spec" = some v) (hw : Dict.get? z.fields "_spec" = some w) (hi : Img ψ v w)
    (hf : ∀ p, w = .ref p → ∃ z x, mem'[p]? = some z ∧ M[ψ p]? = some x ∧ z.cls = x.cls ∧
      (x.cls = .ingredientSpec → Dict.get? z.fields a = Dict.get? x.fields a)) :
    getattr mem' z (a, getattr M x (a, n)) = getattr M x (a, n) := by
  unfold getattr
  rw [hc]
  split
  · rw [hw, hv]
    cases w with
    | ref p =>
      obtain ⟨z', x', h1, h2, h3, h4⟩ := hf p rfl
      have : v = .ref (ψ p) := by
        unfold Img at hi
        simp only [via, tr] at hi
        rw [show nf (.ref (ψ p)) = .ref (ψ p) by simp [nf, cn, tr]] at hi
        exact nf_ref.1 hi.symm
      subst this
      simp only [h1, h2, h3]
      split
      · rename_i hs
        rw [h4 hs]
      · rfl
    | _ => rfl
  · rfl

/-- **a class is instantiated on the copies of its arguments** -/
theorem entity_step {env : Env} {M m0 mem : Mem} {S : Nat → Prop} {ψ : Nat → Nat} (hC : Copies env M S m0 ψ mem) (hM : WellTyped env M) {o : Nat} {x : EObj}
    (hx : M[o]? = some x) (hoS : S o) (hwf : ∀ f ∈ asDict M x, wf f.2) (d : List (String × V))
    (hd : ∀ f ∈ asDict M x, f.1 ≠ "type" → ∃ u, Dict.get? d f.1 = some u ∧ Good env mem m0.length ψ f.2 u) :
    ∃ mem', fromDictE env mem x.cls d = .ok (mem.length, mem') ∧ mem'.length = mem.length + 1 ∧ Copies env M S m0 (upd ψ mem.length o) mem' ∧
      Ext ψ mem (upd ψ mem.length o) mem' := by
  obtain ⟨vals, own, hs, hown⟩ := hM o x hx
  have hA := asDict_eq hs M
  obtain ⟨n1, n2, n3, n4⟩ := eargs_names x.cls
  -- the arguments
  have harg : ∀ i (h1 : i < (eargs x.cls).length) (h2 : i < vals.length), ((eargs x.cls)[i].name, vals[i]) ∈ asDict M x := by
    intro i h1 h2
    rw [hA]
    refine List.mem_cons_of_mem _ (List.mem_cons_of_mem _ (List.mem_append_left _ ?_))
    rw [List.zip_map_left]
    exact List.mem_map.2 ⟨_, zip_nth h1 h2, rfl⟩
  have hget : ∀ i (h1 : i < (eargs x.cls).length) (h2 : i < vals.length), ∃ u, Dict.get? d (eargs x.cls)[i].name = some u ∧ Good env mem m0.length ψ vals[i] u := by
    intro i h1 h2
    exact hd _ (harg i h1 h2) (fun e => n2 (List.mem_map.2 ⟨_, List.getElem_mem h1, e⟩))
  generalize hus : (eargs x.cls).map (fun a => (Dict.get? d a.name).getD .none) = us
  have hlu : us.length = (eargs x.cls).length := by rw [← hus]; simp
  have hui : ∀ i (h1 : i < (eargs x.cls).length) (h2 : i < vals.length) (h3 : i < us.length), Dict.get? d (eargs x.cls)[i].name = some us[i] ∧
      Good env mem m0.length ψ vals[i] us[i] := by
    intro i h1 h2 h3
    obtain ⟨u, e, hg⟩ := hget i h1 h2
    have : us[i] = u := by simp only [← hus, List.getElem_map, e, Option.getD_some]
    rw [this]
    exact ⟨e, hg⟩
  have hcv : ∀ i (h1 : i < (eargs x.cls).length) (h2 : i < vals.length), conv env M (eargs x.cls)[i].kind vals[i] = .ok vals[i] :=
    fun i h1 h2 => hs.conv _ (zip_nth h1 h2)
  have hconv : ∀ i (h1 : i < (eargs x.cls).length) (h2 : i < vals.length) (h3 : i < us.length), ∃ w, conv env mem (eargs x.cls)[i].kind us[i] = .ok w ∧
      conv env mem (eargs x.cls)[i].kind w = .ok w ∧ Good env mem m0.length ψ vals[i] w := by
    intro i h1 h2 h3
    exact conv_good hC (eargs_kinds _ _ (List.getElem_mem h1)).1 (hui i h1 h2 h3).2 (hwf _ (harg i h1 h2)) (hs.ok _ (List.getElem_mem h2)) (hcv i h1 h2)
  obtain ⟨ws, h1, h2, h3⟩ := setAll_ok env mem (fun _ _ _ => True) ((eargs x.cls).map EArg.arg) us vals (by simp [hlu]) (by simp [hs.len]) (by
    intro i i1 i2 i3
    have i1' : i < (eargs x.cls).length := by simpa using i1
    obtain ⟨w, h, _⟩ := hconv i i1' i3 i2
    exact ⟨w, by simpa [EArg.arg] using h, trivial⟩)
  have hlw : ws.length = (eargs x.cls).length := by simpa using h2
  have hw : ∀ i (h1 : i < (eargs x.cls).length) (h2 : i < vals.length) (h3 : i < ws.length), conv env mem (eargs x.cls)[i].kind ws[i] = .ok ws[i] ∧
      Good env mem m0.length ψ vals[i] ws[i] := by
    intro i i1 i2 i3
    obtain ⟨w, e1, e2, e3⟩ := hconv i i1 i2 (by omega)
    have e4 := (h3 i (by simpa using i1) (by omega) i2 i3).1
    simp only [List.getElem_map, EArg.arg] at e4
    rw [e1] at e4
    cases e4
    exact ⟨e2, e3⟩
  have hwm : ∀ w ∈ ws, ∃ v, Good env mem m0.length ψ v w := by
    intro w hm
    obtain ⟨i, hi, rfl⟩ := List.getElem_of_mem hm
    exact ⟨_, (hw i (by omega) (by have := hs.len; omega) hi).2⟩
  -- the ids
  obtain ⟨uu, hu1, hu2⟩ := hd ("uids", uidsDict x.uids) (by rw [hA]; simp) (by simp)
  obtain ⟨ps, hp1, hp2⟩ := convUids_img (env := env) hs.uids hu2.wf hu2.img
  -- name and labels of ingredients
  have hnl : ∃ name labels, nameLike name ∧ labelsLike labels ∧ ∀ hc : x.cls = .ingredientRun, (Dict.get? d "name").getD .none = name ∧
      (Dict.get? d "labels").getD .none = labels ∧ ∃ nm lb, own = [("_name", nm), ("_labels", lb)] ∧ name = getattr M x ("_name", nm) ∧
        labels = getattr M x ("_labels", lb) := by
    by_cases hc : x.cls = .ingredientRun
    · obtain ⟨name, labels, hpart, q1, q2⟩ := ingredientPart_eq hM hs hc (hown hc)
      obtain ⟨nm, lb, hownE, _, _⟩ := hown hc
      refine ⟨name, labels, q1, q2, fun _ => ?_⟩
      obtain ⟨u1, g1, g2⟩ := hd ("name", name) (by rw [hA, hpart]; simp) (by simp)
      obtain ⟨u2, g3, g4⟩ := hd ("labels", labels) (by rw [hA, hpart]; simp) (by simp)
      simp only at g1 g2 g3 g4
      refine ⟨?_, ?_, nm, lb, hownE, ?_, ?_⟩
      · rw [g1]; exact nameLike_img q1 g2.img
      · rw [g3]; exact labelsLike_img q2 g4.wf g4.noTuple g4.img
      · have hp := hpart
        unfold ingredientPart at hp
        rw [if_pos hc, hownE] at hp
        simp only [List.map_cons, List.map_nil, List.cons.injEq, Prod.mk.injEq] at hp
        exact hp.1.2.symm
      · have hp := hpart
        unfold ingredientPart at hp
        rw [if_pos hc, hownE] at hp
        simp only [List.map_cons, List.map_nil, List.cons.injEq, Prod.mk.injEq] at hp
        exact hp.2.1.2.symm
    · exact ⟨.none, .none, .inl rfl, .inl rfl, fun e => absurd e hc⟩
  obtain ⟨name, labels, q1, q2, q3⟩ := hnl
  generalize hz : loaded x.cls ps ws name labels = z
  have hzc : z.cls = x.cls := by rw [← hz]; rfl
  have hzf : z.fields = ((eargs x.cls).map EArg.attr).zip ws ++ loadedOwn x.cls name labels := by rw [← hz]; rfl
  have hzu : z.uids = ps := by rw [← hz]; rfl
  refine ⟨linkBack mem mem.length z ++ [z], ?_, by simp [linkBack_length], ?_⟩
  · rw [← hz]
    refine fromDictE_eq env mem x.cls d us ws ps name labels hlu hlw ?_ ?_ (by rw [hu1]; exact hp1) ?_ ?_
    · intro p hp
      obtain ⟨i, hi, rfl⟩ := List.getElem_of_mem hp
      simp only [List.length_zip] at hi
      simp only [List.getElem_zip]
      exact (hui i (by omega) (by have := hs.len; omega) (by omega)).1
    · rw [List.zip_map_left, List.map_map] at h1
      exact h1
    · intro p hp
      obtain ⟨v, hg⟩ := hwm _ hp
      exact (hg.refs p (self_mem_subs _)).2
    · intro hc
      obtain ⟨a1, a2, _⟩ := q3 hc
      exact ⟨a1, a2, q2⟩
  -- afterwards
  have hbase : ∀ there back, backRef z.cls = some (there, back) → ∀ q, Dict.get? z.fields there = some (.ref q) → m0.length ≤ q := by
    intro there back hb q hq
    rw [hzc] at hb
    obtain ⟨a, ha, e1, _⟩ := backRef_arg x.cls there back hb
    obtain ⟨v, hv, h1, _⟩ := get?_args (own := loadedOwn x.cls name labels) (own' := []) hlw ⟨a, ha, e1⟩
    rw [hzf, h1] at hq
    cases hq
    obtain ⟨_, hg⟩ := hwm _ hv
    exact (hg.refs q (self_mem_subs _)).1
  have hkept : ∀ (p : Nat) (y : EObj), mem[p]? = some y → ∃ y', (linkBack mem mem.length z ++ [z])[p]? = some y' ∧ Kept y y' ∧ (p < m0.length → y' = y) := by
    intro p y hy
    obtain ⟨y', e1, e2, e3⟩ := linkBack_kept mem mem.length m0.length z hbase hy
    refine ⟨y', ?_, e2, e3⟩
    rw [List.getElem?_append_left (by rw [linkBack_length]; exact (List.getElem?_eq_some_iff.1 hy).1)]
    exact e1
  have hgr : Grows mem (linkBack mem mem.length z ++ [z]) := (linkBack_grows _ _ _).trans (Grows.append _ _)
  have hshape : Shape env mem z ws (loadedOwn x.cls name labels) := by
    refine ⟨by rw [hzc]; exact hlw, by rw [hzf, hzc], ?_, ?_, ?_, ?_⟩
    · rw [hzc]; unfold loadedOwn
      split
      · rename_i e; rw [e]; rfl
      · rfl
    · intro p hp
      rw [hzc] at hp
      obtain ⟨i, hi, rfl⟩ := List.getElem_of_mem hp
      simp only [List.length_zip] at hi
      simp only [List.getElem_zip]
      exact (hw i (by omega) (by have := hs.len; omega) (by omega)).1
    · intro w hm
      obtain ⟨_, hg⟩ := hwm w hm
      exact hg.ok
    · rw [hzu]; exact clash_perm env.lower (hp2.map Prod.fst).symm hs.uids
  have hext : Ext ψ mem (upd ψ mem.length o) (linkBack mem mem.length z ++ [z]) :=
    ⟨hgr, by simp [linkBack_length], fun p hp => if_neg (Nat.ne_of_lt hp)⟩
  refine ⟨⟨?_, by simp [linkBack_length]; exact Nat.le_succ_of_le hC.len, ?_, ?_⟩, hext⟩
  · refine (linkBack_wellTyped hC.typed _ _).append (hshape.grows (linkBack_grows _ _ _)) (fun hc => ?_)
    rw [hzc] at hc
    exact ⟨name, labels, by unfold loadedOwn; rw [if_pos hc], q1, q2⟩
  · intro p hp
    have hp' : p < mem.length := Nat.lt_of_lt_of_le hp hC.len
    obtain ⟨y', e1, _, e3⟩ := hkept p _ (List.getElem?_eq_getElem hp')
    rw [e1, e3 hp, ← List.getElem?_eq_getElem hp', hC.old p hp]
  · intro p z' hp hz'
    by_cases hlt : p < mem.length
    · -- an older copy
      obtain ⟨y', e1, e2, _⟩ := hkept p _ (List.getElem?_eq_getElem hlt)
      rw [hz'] at e1
      cases e1
      obtain ⟨x', hx', hS', ht⟩ := hC.twin p _ hp (List.getElem?_eq_getElem hlt)
      refine ⟨x', by rw [hext.agree p hlt]; exact hx', by rw [hext.agree p hlt]; exact hS', ?_⟩
      have hAk : asDict (linkBack mem mem.length z ++ [z]) z' = asDict mem mem[p] :=
        asDict_kept hC.typed (fun p y hy => by obtain ⟨y', a, b, _⟩ := hkept p y hy; exact ⟨y', a, b⟩) (List.getElem?_eq_getElem hlt) e2
      refine ⟨by rw [e2.cls]; exact ht.cls, by rw [e2.get? (by decide)]; exact ht.bounds, fun hc => ?_, by rw [hAk]; exact ht.names, ?_, ?_⟩
      · rw [e2.get? (by decide), e2.get? (by decide)]; exact ht.spec hc
      · intro f hf
        obtain ⟨u, hu, hi⟩ := ht.fields f hf
        refine ⟨u, by rw [hAk]; exact hu, hi.congr (fun q hq => hext.agree q ?_)⟩
        exact Nat.lt_trans ((ht.plain _ hu).2.2 q hq).2 hlt
      · rw [hAk]; exact ht.plain
    · -- the new one
      have hpe : p = mem.length := by
        have := (List.getElem?_eq_some_iff.1 hz').1
        simp [linkBack_length] at this
        omega
      subst hpe
      have : z' = z := by
        rw [List.getElem?_append_right (by rw [linkBack_length]; exact Nat.le_refl _)] at hz'
        simp [linkBack_length] at hz'
        exact hz'.symm
      subst this
      refine ⟨x, by simp [upd]; exact hx, by simp [upd]; exact hoS, ?_⟩
      have hB := asDict_eq hshape (linkBack mem mem.length z' ++ [z'])
      have hpart : ingredientPart (linkBack mem mem.length z' ++ [z']) z' (loadedOwn x.cls name labels) = ingredientPart M x own := by
        unfold ingredientPart
        rw [hzc]
        by_cases hc : x.cls = .ingredientRun
        · rw [if_pos hc, if_pos hc]
          obtain ⟨_, _, nm, lb, hownE, en, el⟩ := q3 hc
          obtain ⟨i, i1, i2, ea, eg, _⟩ := spec_in hs hc
          obtain ⟨j, j1, j2, ea', eg', _⟩ := spec_in hshape (by rw [hzc]; exact hc)
          have hij : j = i := by
            have hzc' := hzc
            rw [hc] at hzc'
            simp only [hzc'] at j1 ea'
            simp only [hc] at i1 ea
            have := one_spec ⟨i, i1⟩ ⟨j, j1⟩ ea ea'
            simpa using this
          subst hij
          have hg := (hw j i1 i2 j2).2
          have hspec : ∀ a, a = "_name" ∨ a = "_labels" → ∀ n, getattr (linkBack mem mem.length z' ++ [z']) z' (a, getattr M x (a, n)) = getattr M x (a, n) := by
            intro a ha n
            refine getattr_copy ha n hzc eg eg' hg.img (fun q hq => ?_)
            obtain ⟨b1, b2⟩ := hg.refs q (by rw [hq]; exact self_mem_subs _)
            obtain ⟨x', hx', _, ht⟩ := hC.twin q _ b1 (List.getElem?_eq_getElem b2)
            obtain ⟨y', c1, c2, _⟩ := hkept q _ (List.getElem?_eq_getElem b2)
            refine ⟨y', x', c1, hx', by rw [c2.cls]; exact ht.cls, fun hsp => ?_⟩
            rcases ha with rfl | rfl
            · rw [c2.get? (by decide)]; exact (ht.spec hsp).1
            · rw [c2.get? (by decide)]; exact (ht.spec hsp).2
          unfold loadedOwn
          rw [if_pos hc, hownE]
          simp only [List.map_cons, List.map_nil]
          rw [en, el, hspec _ (.inl rfl), hspec _ (.inr rfl)]
        · rw [if_neg hc, if_neg hc]
      rw [hpart, hzc, hzu] at hB
      have hpn : ∀ f ∈ ingredientPart M x own, nameLike f.2 ∨ labelsLike f.2 := by
        intro f hf
        by_cases hc : x.cls = .ingredientRun
        · obtain ⟨name, labels, hpart, q1, q2⟩ := ingredientPart_eq hM hs hc (hown hc)
          rw [hpart] at hf
          simp only [List.mem_cons, List.not_mem_nil, or_false] at hf
          rcases hf with rfl | rfl
          · exact .inl q1
          · exact .inr q2
        · unfold ingredientPart at hf
          rw [if_neg hc] at hf
          simp at hf
      have hpp : ∀ f ∈ ingredientPart M x own, (∀ ψ, Img ψ f.2 f.2) ∧ Clean env mem f.2 := by
        intro f hf
        rcases hpn f hf with h | h
        · obtain ⟨a, b⟩ := nameLike_clean (env := env) (m := mem) h
          exact ⟨fun ψ => by unfold Img via; rw [b], a⟩
        · obtain ⟨a, b⟩ := labelsLike_clean (env := env) (m := mem) h
          exact ⟨fun ψ => by unfold Img via; rw [b], a⟩
      have hfield : ∀ k, (∀ i (h1 : i < (eargs x.cls).length), (eargs x.cls)[i].attr = k → k = "_bounds" ∨ plainKind (eargs x.cls)[i].kind = true) →
          k ∉ (ownFields x.cls).map Prod.fst → Dict.get? z'.fields k = Dict.get? x.fields k := by
        intro k hk hno
        rw [hzf, hs.fields, get?_append, get?_append]
        have o1 : Dict.get? own k = none := by
          rw [Dict.get?_eq_none_iff]; unfold Dict.keys; rw [hs.own]; exact hno
        have o2 : Dict.get? (loadedOwn x.cls name labels) k = none := by
          rw [Dict.get?_eq_none_iff]; unfold Dict.keys; rw [hshape.own, hzc]; exact hno
        rw [o1, o2, get?_zip_rel (eargs x.cls) vals ws hs.len hlw k]
        intro i i1 i2 i3 e
        obtain ⟨c1, c2⟩ := hw i i1 i2 i3
        by_cases hb : k = "_bounds"
        · subst hb
          have key : ∀ c : ECls, ∀ a ∈ eargs c, a.attr = "_bounds" → (match a.kind with | .obj ts e => decide (ts = boundsTypes) | _ => false) = true := by
            intro c; cases c <;> decide +kernel
          have hkk := key x.cls _ (List.getElem_mem i1) e
          have hcv' := hcv i i1 i2
          cases hkd : (eargs x.cls)[i].kind <;> simp [hkd] at hkk
          rename_i ts emp
          rw [hkd] at hcv'
          simp only [hkk, conv, convObj] at hcv'
          have hbt : isTyp boundsTypes vals[i] = true := by
            split at hcv'
            · cases hcv'
            · split at hcv'
              · assumption
              · cases hcv'
          exact bounds_img hbt (hs.ok _ (List.getElem_mem i2)) c2
        · exact plain_eq ((hk i i1 e).resolve_left hb) (hcv i i1 i2) c1 c2
      refine ⟨hzc, ?_, fun hc => ⟨?_, ?_⟩, ?_, ?_, ?_⟩
      · refine hfield _ (fun _ _ _ => .inl rfl) ?_
        generalize x.cls = c
        cases c <;> decide +kernel
      · refine hfield _ ?_ (by rw [hc]; decide +kernel)
        rw [hc]
        intro i h1 e
        have key : ∀ a ∈ eargs .ingredientSpec, a.attr = "_name" → plainKind a.kind = true := by decide +kernel
        exact .inr (key _ (List.getElem_mem h1) e)
      · refine hfield _ ?_ (by rw [hc]; decide +kernel)
        rw [hc]
        intro i h1 e
        have key : ∀ a ∈ eargs .ingredientSpec, a.attr = "_labels" → plainKind a.kind = true := by decide +kernel
        exact .inr (key _ (List.getElem_mem h1) e)
      · rw [hA, hB]
        simp only [List.map_cons, List.map_append]
        rw [List.map_fst_zip (by simp [hlw]), List.map_fst_zip (by simp [hs.len])]
      · intro f hf
        rw [hA] at hf
        rcases List.mem_cons.1 hf with rfl | hf
        · exact ⟨.str (Equal.typ x.cls), by rw [hB]; simp, by simp [Img, via, tr]⟩
        · rcases List.mem_cons.1 hf with rfl | hf
          · exact ⟨uidsDict ps, by rw [hB]; simp, uids_img _ hp2 (uids_nodup hs.uids)⟩
          · rcases List.mem_append.1 hf with hf | hf
            · rw [List.zip_map_left] at hf
              obtain ⟨q, hq, rfl⟩ := List.mem_map.1 hf
              obtain ⟨i, hi, rfl⟩ := List.getElem_of_mem hq
              simp only [List.length_zip] at hi
              simp only [List.getElem_zip, Prod.map_fst, Prod.map_snd, id]
              have hg := (hw i (by omega) (by omega) (by omega)).2
              refine ⟨ws[i], ?_, hg.img.congr (fun q hq => hext.agree q (hg.refs q hq).2)⟩
              rw [hB]
              refine List.mem_cons_of_mem _ (List.mem_cons_of_mem _ (List.mem_append_left _ ?_))
              rw [List.zip_map_left]
              exact List.mem_map.2 ⟨_, zip_nth (by omega) (by omega), rfl⟩
            · refine ⟨f.2, ?_, (hpp f hf).1 _⟩
              rw [hB]
              exact List.mem_cons_of_mem _ (List.mem_cons_of_mem _ (List.mem_append_right _ hf))
      · intro f hf
        rw [hB] at hf
        rcases List.mem_cons.1 hf with rfl | hf
        · exact ⟨by simp [wf], by simp [noTuple], fun q hq => by simp [V.subs] at hq⟩
        · rcases List.mem_cons.1 hf with rfl | hf
          · have hty : "type" ∉ ps.map Prod.fst := by
              have hw' := hwf ("uids", uidsDict x.uids) (by rw [hA]; simp)
              simp only [uidsDict, wf] at hw'
              obtain ⟨⟨_, names, hsn, _, hnt⟩, _⟩ := hw'
              have e : x.uids.map (fun p => V.str p.1) = (x.uids.map Prod.fst).map .str := by simp
              rw [e, strings_str] at hsn
              cases hsn
              rw [(hp2.map Prod.fst).mem_iff]
              exact hnt
            have hcl := wf_uids (env := env) (m := mem) ps (clash_perm env.lower (hp2.map Prod.fst).symm hs.uids) hty
            exact ⟨hcl.wf, hcl.noTuple, fun q hq => absurd hq (noRef_subs _ hcl.wf hcl.noRef q)⟩
          · rcases List.mem_append.1 hf with hf | hf
            · obtain ⟨_, hg⟩ := hwm _ (List.of_mem_zip (a := f.1) (b := f.2) hf).2
              exact ⟨hg.wf, hg.noTuple, hg.refs⟩
            · have hcl := (hpp f hf).2
              exact ⟨hcl.wf, hcl.noTuple, fun q hq => absurd hq (noRef_subs _ hcl.wf hcl.noRef q)⟩

end Verif.Json
