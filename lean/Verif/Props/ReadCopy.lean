import Verif.Props.Copies
/-!
# Reading a text builds copies
-/

set_option linter.unusedSimpArgs false
set_option linter.unusedVariables false
set_option linter.unusedSectionVars false

namespace Verif.Json
open Verif.Py Verif.Value Verif.Schema Verif.Substitute

theorem num_via (ψ : Nat → Nat) (w : V) : num (via ψ w) = num w := by
  unfold via
  cases w with
  | dict ks vs =>
    simp only [tr]
    obtain ⟨_, _, e⟩ := sortDict_dict ks (trs (fun p => V.ref (ψ p)) .link vs)
    rw [e]
    rfl
  | _ => rfl

theorem get?_num (ns : List String) (us vs : List V) (h : us.map num = vs.map num) (n : String) :
    (Dict.get? (ns.zip us) n).bind num = (Dict.get? (ns.zip vs) n).bind num := by
  induction ns generalizing us vs with
  | nil => simp
  | cons k ns ih =>
    cases us with
    | nil => cases vs with
      | nil => rfl
      | cons v vs => simp at h
    | cons u us => cases vs with
      | nil => simp at h
      | cons v vs =>
        simp only [List.map_cons, List.cons.injEq] at h
        simp only [List.zip_cons_cons, Dict.get?]
        split
        · simpa using h.1
        · exact ih us vs h.2

theorem checkOrder_num (c : Cls) (ns : List String) {us vs : List V} (h : us.map num = vs.map num) :
    checkOrder c (ns.zip us) = checkOrder c (ns.zip vs) := by
  unfold checkOrder Schema.inOrder
  rw [get?_num ns us vs h, get?_num ns us vs h]

section
variable {env : Env} {M m0 mem : Mem} {S : Nat → Prop} {ψ : Nat → Nat}

/-- **an object that is a value is built on the copies of its arguments** -/
theorem construct_good (hC : Copies env M S m0 ψ mem) (t : String) (ns : List String) (vs : List V) (hvw : wf (.obj t ns vs)) (hvo : okV env M (.obj t ns vs))
    (c : Cls) (hc : Dict.get? table t = some c) (kwargs : List (String × V))
    (hk : ∀ n v, (n, v) ∈ ns.zip vs → ∃ u, Dict.get? kwargs n = some u ∧ Good env mem m0.length ψ v u) :
    ∃ ws, construct env mem t c kwargs = .ok (.obj t ns ws) ∧ Good env mem m0.length ψ (.obj t ns vs) (.obj t ns ws) := by
  simp only [wf, okV] at hvw hvo
  obtain ⟨hst, hvo⟩ := hvo
  obtain ⟨hl1, hvw⟩ := hvw
  have hst' := hst
  obtain ⟨c', hc', hns, hlen, hcv, hord⟩ := hst'
  rw [hc] at hc'
  cases hc'
  rw [wfs_iff] at hvw
  rw [okVs_iff] at hvo
  have hla : c.args.length = vs.length := by rw [hlen, hns]; simp [Cls.names]
  have hget : ∀ i (h1 : i < c.args.length) (h2 : i < vs.length), ∃ u, Dict.get? kwargs c.args[i].name = some u ∧ Good env mem m0.length ψ vs[i] u := by
    intro i h1 h2
    apply hk
    rw [hns]
    unfold Cls.names
    rw [List.zip_map_left]
    exact List.mem_map.2 ⟨_, zip_nth h1 h2, rfl⟩
  generalize hus : c.args.map (fun a => (Dict.get? kwargs a.name).getD .none) = us
  have hlu : us.length = c.args.length := by rw [← hus]; simp
  have hui : ∀ i (h1 : i < c.args.length) (h2 : i < vs.length) (h3 : i < us.length), Dict.get? kwargs c.args[i].name = some us[i] ∧
      Good env mem m0.length ψ vs[i] us[i] := by
    intro i h1 h2 h3
    obtain ⟨u, e, hg⟩ := hget i h1 h2
    have : us[i] = u := by simp only [← hus, List.getElem_map, e, Option.getD_some]
    rw [this]
    exact ⟨e, hg⟩
  have hb := bind_of kwargs c.args us (by omega) (by
    intro p hp
    obtain ⟨i, hi, rfl⟩ := List.getElem_of_mem hp
    simp only [List.length_zip] at hi
    simp only [List.getElem_zip]
    exact (hui i (by omega) (by omega) (by omega)).1)
  have hconv : ∀ i (h1 : i < c.args.length) (h2 : i < vs.length) (h3 : i < us.length), ∃ w, conv env mem c.args[i].kind us[i] = .ok w ∧
      conv env mem c.args[i].kind w = .ok w ∧ Good env mem m0.length ψ vs[i] w := by
    intro i h1 h2 h3
    exact conv_good hC (table_kinds t c hc _ (List.getElem_mem h1)).1 (hui i h1 h2 h3).2 (hvw _ (List.getElem_mem h2)) (hvo _ (List.getElem_mem h2))
      (hst.nth hc i h2 h1)
  obtain ⟨ws, h1, h2, h3⟩ := setAll_ok env mem (fun _ _ _ => True) c.args us vs (by omega) hla (by
    intro i i1 i2 i3
    obtain ⟨w, h, _⟩ := hconv i i1 i3 i2
    exact ⟨w, h, trivial⟩)
  have hw : ∀ i (h1 : i < c.args.length) (h2 : i < vs.length) (h3 : i < ws.length), conv env mem c.args[i].kind ws[i] = .ok ws[i] ∧
      Good env mem m0.length ψ vs[i] ws[i] := by
    intro i i1 i2 i3
    obtain ⟨w, e1, e2, e3⟩ := hconv i i1 i2 (by omega)
    have e4 := (h3 i i1 (by omega) i2 i3).1
    rw [e1] at e4
    cases e4
    exact ⟨e2, e3⟩
  have hwm : ∀ w ∈ ws, ∃ v, Good env mem m0.length ψ v w := by
    intro w hm
    obtain ⟨i, hi, rfl⟩ := List.getElem_of_mem hm
    exact ⟨_, (hw i (by omega) (by omega) hi).2⟩
  have hnf : (ws.map (via ψ)).map nf = vs.map nf := by
    apply List.ext_getElem
    · simp; omega
    · intro i i1 i2
      simp only [List.length_map] at i1 i2
      simp only [List.getElem_map]
      exact (hw i (by omega) i2 i1).2.img
  have hco : checkOrder c (ns.zip ws) = .ok () := by
    rw [← hord, ← checkOrder_nf c hnf]
    apply checkOrder_num
    rw [List.map_map]
    apply List.map_congr_left
    intro w _
    exact (num_via ψ w).symm
  refine ⟨ws, ?_, ?_⟩
  · simp only [construct, hb, h1]
    rw [← hns, hco]
  · constructor
    · unfold Img via
      simp only [tr]
      rw [trs_eq, nf_obj, nf_obj]
      congr 1
    · simp only [wf]
      refine ⟨by omega, ?_⟩
      rw [wfs_iff]
      intro w hm
      obtain ⟨_, hg⟩ := hwm w hm
      exact hg.wf
    · simp only [noTuple]
      rw [noTuples_iff]
      intro w hm
      obtain ⟨_, hg⟩ := hwm w hm
      exact hg.noTuple
    · simp only [okV]
      refine ⟨⟨c, hc, hns, by omega, ?_, hco⟩, ?_⟩
      · intro p hp
        obtain ⟨i, hi, rfl⟩ := List.getElem_of_mem hp
        simp only [List.length_zip] at hi
        simp only [List.getElem_zip]
        exact (hw i (by omega) (by omega) (by omega)).1
      · rw [okVs_iff]
        intro w hm
        obtain ⟨_, hg⟩ := hwm w hm
        exact hg.ok
    · intro p hp
      simp only [V.subs, List.mem_cons, reduceCtorEq, false_or] at hp
      obtain ⟨w, hm, hp⟩ := mem_subss.1 hp
      obtain ⟨_, hg⟩ := hwm w hm
      exact hg.refs p hp

end

/-! ## Reading -/

section
variable (env : Env) (M : Mem) (S : Nat → Prop) (m0 : Mem)

/-- reading `t` after any number of copies gives a copy of `v` -/
def Reads (v t : V) : Prop := ∀ (st : Loading) (ψ : Nat → Nat), Copies env M S m0 ψ st.mem → ∃ u st' ψ', dec (loadAndIndex env false) t st = .ok (u, st') ∧
  Ext ψ st.mem ψ' st'.mem ∧ Copies env M S m0 ψ' st'.mem ∧ Good env st'.mem m0.length ψ' v u

variable {env M S m0}

theorem decs_reads (T : V → V) (vs : List V) (h : ∀ v ∈ vs, Reads env M S m0 v (T v)) (st : Loading) (ψ : Nat → Nat) (hC : Copies env M S m0 ψ st.mem) :
    ∃ us st' ψ', decs (loadAndIndex env false) (vs.map T) st = .ok (us, st') ∧ Ext ψ st.mem ψ' st'.mem ∧ Copies env M S m0 ψ' st'.mem ∧
      us.length = vs.length ∧ ∀ i (h1 : i < vs.length) (h2 : i < us.length), Good env st'.mem m0.length ψ' vs[i] us[i] := by
  induction vs generalizing st ψ with
  | nil => exact ⟨[], st, ψ, rfl, Ext.refl _ _, hC, rfl, fun i h1 => absurd h1 (by simp)⟩
  | cons v vs ih =>
    obtain ⟨u, st1, ψ1, e1, x1, c1, g1⟩ := h v (by simp) st ψ hC
    obtain ⟨us, st2, ψ2, e2, x2, c2, l2, g2⟩ := ih (fun v hv => h v (by simp [hv])) st1 ψ1 c1
    refine ⟨u :: us, st2, ψ2, by simp only [List.map_cons, decs, e1, e2], x1.trans x2, c2, by simp [l2], ?_⟩
    intro i h1 h2
    cases i with
    | zero => exact g1.ext x2
    | succ i => exact g2 i (by simpa using h1) (by simpa using h2)

/-- reading a dictionary: first the values, then the hook -/
theorem fields_read (T : V → V) (fs : List (String × V)) (hn : (fs.map Prod.fst).Nodup) (h : ∀ f ∈ fs, Reads env M S m0 f.2 (T f.2)) (st : Loading)
    (ψ : Nat → Nat) (hC : Copies env M S m0 ψ st.mem) :
    ∃ d st' ψ', dec (loadAndIndex env false) (mkDict (sortFields (onSnd T fs))) st = loadAndIndex env false d st' ∧ Ext ψ st.mem ψ' st'.mem ∧
      Copies env M S m0 ψ' st'.mem ∧ d.map Prod.fst = (sortFields fs).map Prod.fst ∧
      onSnd (fun v => nf (via ψ' v)) d = onSnd nf (sortFields fs) ∧ (∀ e ∈ d, ∃ v, Good env st'.mem m0.length ψ' v e.2) ∧
      ∀ f ∈ fs, ∃ u, Dict.get? d f.1 = some u ∧ Good env st'.mem m0.length ψ' f.2 u := by
  have hp := sortFields_perm fs
  obtain ⟨us, st', ψ', e, x, c, hl, g⟩ := decs_reads T ((sortFields fs).map Prod.snd) (by
    intro v hv
    obtain ⟨f, hf, rfl⟩ := List.mem_map.1 hv
    exact h f (hp.mem_iff.1 hf)) st ψ hC
  have hl' : us.length = (sortFields fs).length := by simpa using hl
  refine ⟨((sortFields fs).map Prod.fst).zip us, st', ψ', ?_, x, c, ?_, ?_, ?_, ?_⟩
  · rw [onSnd_sort]
    simp only [mkDict, dec, mkDict_keys, onSnd_fst, onSnd_snd]
    rw [e]
  · rw [List.map_fst_zip (by simp [hl'])]
  · rw [onSnd_zip]
    have : us.map (fun v => nf (via ψ' v)) = ((sortFields fs).map Prod.snd).map nf := by
      apply List.ext_getElem
      · simp [hl']
      · intro i i1 i2
        simp only [List.length_map] at i1 i2
        have := (g i (by simpa using i2) i1).img
        unfold Img at this
        simpa using this
    rw [this, ← onSnd_zip, zip_fst_snd]
  · intro e he
    have := (List.of_mem_zip (a := e.1) (b := e.2) he).2
    obtain ⟨i, hi, e'⟩ := List.getElem_of_mem this
    rw [← e']
    exact ⟨_, g i (by simp; omega) hi⟩
  · intro f hf
    obtain ⟨i, hi, e'⟩ := List.getElem_of_mem (hp.mem_iff.2 hf)
    have hnd : ((sortFields fs).map Prod.fst).Nodup := ((hp.map Prod.fst).nodup_iff).2 hn
    refine ⟨us[i], ?_, ?_⟩
    · apply get?_zip (i := i) (by simp [hl']) hnd
      · simp [hi, e']
      · simp [hl', hi]
    · have := g i (by simpa using hi) (by omega)
      simpa [e'] using this

/-- what `enc` writes -/
def encd (E : Nat → Except PyErr V) (v : V) : V := match enc E v with
  | .ok t => t
  | .error _ => .none

theorem encs_encd (E : Nat → Except PyErr V) (vs ts : List V) (h : encs E vs = .ok ts) : ts = vs.map (encd E) ∧ ∀ v ∈ vs, enc E v = .ok (encd E v) := by
  induction vs generalizing ts with
  | nil => simp [encs] at h; subst h; simp
  | cons v vs ih =>
    simp only [encs] at h
    split at h
    · cases h
    · rename_i w hw
      split at h
      · cases h
      · rename_i ws hws
        cases h
        obtain ⟨h1, h2⟩ := ih ws hws
        have e : encd E v = w := by unfold encd; rw [hw]
        refine ⟨by rw [List.map_cons, ← h1, e], ?_⟩
        intro u hu
        rcases List.mem_cons.1 hu with rfl | hu
        · rw [e]; exact hw
        · exact h2 u hu

theorem get?_none_of {d : List (String × V)} {k : String} (h : k ∉ d.map Prod.fst) : Dict.get? d k = none := by
  rw [Dict.get?_eq_none_iff]; exact h

/-- what a record with a type is turned into -/
theorem hook_typed (d : List (String × V)) (t : String) (st : Loading) (h1 : Dict.get? d "type" = some (.str t)) (h2 : "self" ∉ d.map Prod.fst) :
    loadAndIndex env false d st = loadAs env false t (Dict.erase d "type") st := by
  unfold loadAndIndex
  rw [h1]
  simp only
  rw [if_neg]
  rw [get?_none_of h2]
  simp

/-- the record of an object or an entity -/
theorem record_read (t : String) (T : V → V) (hT : ∀ s, T (.str s) = .str s) (fs : List (String × V)) (hn : (fs.map Prod.fst).Nodup) (hty : "type" ∉ fs.map Prod.fst)
    (hself : "self" ∉ fs.map Prod.fst) (h : ∀ f ∈ fs, Reads env M S m0 f.2 (T f.2)) (st : Loading) (ψ : Nat → Nat) (hC : Copies env M S m0 ψ st.mem) :
    ∃ d st' ψ', dec (loadAndIndex env false) (mkDict (sortFields (("type", .str t) :: onSnd T fs))) st = loadAs env false t d st' ∧ Ext ψ st.mem ψ' st'.mem ∧
      Copies env M S m0 ψ' st'.mem ∧ ∀ f ∈ fs, ∃ u, Dict.get? d f.1 = some u ∧ Good env st'.mem m0.length ψ' f.2 u := by
  have e : (("type", V.str t) :: onSnd T fs) = onSnd T (("type", .str t) :: fs) := by simp [onSnd, hT]
  have hnd : ((("type", V.str t) :: fs).map Prod.fst).Nodup := by
    rw [List.map_cons, List.nodup_cons]; exact ⟨hty, hn⟩
  obtain ⟨d, st', ψ', h1, h2, h3, h4, _, _, h7⟩ := fields_read (env := env) (M := M) (m0 := m0) T (("type", .str t) :: fs) hnd (by
    intro f hf
    rcases List.mem_cons.1 hf with rfl | hf
    · intro st ψ hC
      rw [hT]
      refine ⟨.str t, st, ψ, rfl, Ext.refl _ _, hC, ?_⟩
      exact ⟨by simp [Img, via, tr], by simp [wf], by simp [noTuple], by simp [okV], fun p hp => by simp [V.subs] at hp⟩
    · exact h f hf) st ψ hC
  have hdn : (d.map Prod.fst).Nodup := by
    rw [h4, ((sortFields_perm _).map Prod.fst).nodup_iff]; exact hnd
  refine ⟨Dict.erase d "type", st', ψ', ?_, h2, h3, ?_⟩
  · rw [e, h1]
    obtain ⟨u, g1, g2⟩ := h7 ("type", .str t) (by simp)
    have : u = .str t := nameLike_img (.inr rfl) g2.img
    subst this
    refine hook_typed d t st' g1 ?_
    rw [h4, ((sortFields_perm _).map Prod.fst).mem_iff]
    simpa using hself
  · intro f hf
    obtain ⟨u, g1, g2⟩ := h7 f (by simp [hf])
    refine ⟨u, ?_, g2⟩
    rw [Dict.get?_erase hdn, if_neg]
    · exact g1
    · intro e
      exact hty (List.mem_map.2 ⟨f, hf, e.symm⟩)


theorem reads_leaf (v : V) (h : scalar v = true ∨ isLink v = true) (hd : ∀ st, dec (loadAndIndex env false) v st = .ok (v, st)) : Reads env M S m0 v v := by
  intro st ψ hC
  have hcl := leaf_clean (env := env) (m := st.mem) h
  refine ⟨v, st, ψ, hd st, Ext.refl _ _, hC, ?_, hcl.wf, hcl.noTuple, hcl.ok, fun p hp => absurd hp (noRef_subs _ hcl.wf hcl.noRef p)⟩
  unfold Img
  rcases h with h | h
  · rw [noRef_via ψ h]
  · cases v <;> simp [isLink] at h
    simp [via, tr]

theorem reads_link (s i : String) : Reads env M S m0 (.link s i) (mkDict [("id", .str i), ("scope", .str s), ("type", .str "link_by_uid")]) := by
  intro st ψ hC
  have hcl := leaf_clean (env := env) (m := st.mem) (v := .link s i) (.inr rfl)
  refine ⟨.link s i, st, ψ, ?_, Ext.refl _ _, hC, by simp [Img, via, tr], hcl.wf, hcl.noTuple, hcl.ok, fun p hp => absurd hp (noRef_subs _ hcl.wf hcl.noRef p)⟩
  simp [mkDict, dec, decs, strings, loadAndIndex, loadAs, loadLink, Dict.get?, Dict.erase]

theorem reads_list (l ts : List V) {v : V} (hv : v = .list l ∨ v = .tuple l) (E : Nat → Except PyErr V) (hts : encs E l = .ok ts)
    (h : ∀ v ∈ l, ∀ t, enc E v = .ok t → Reads env M S m0 v t) : Reads env M S m0 v (.list ts) := by
  intro st ψ hC
  obtain ⟨rfl, he⟩ := encs_encd E l ts hts
  obtain ⟨us, st', ψ', h1, h2, h3, h4, h5⟩ := decs_reads (env := env) (M := M) (m0 := m0) (encd E) l (fun v hv => h v hv _ (he v hv)) st ψ hC
  have all : ∀ w ∈ us, ∃ v, Good env st'.mem m0.length ψ' v w := by
    intro w hm
    obtain ⟨i, hi, rfl⟩ := List.getElem_of_mem hm
    exact ⟨_, h5 i (by omega) hi⟩
  refine ⟨.list us, st', ψ', by simp only [dec, h1], h2, h3, ?_, ?_, ?_, ?_, ?_⟩
  · have e : nf (.list us |> via ψ') = .list (l.map nf) := by
      unfold via
      simp only [tr]
      rw [trs_eq, nf_list]
      congr 1
      apply List.ext_getElem
      · simp [h4]
      · intro i i1 i2
        simp only [List.length_map] at i1 i2
        have := (h5 i i2 (by omega)).img
        unfold Img via at this
        simpa using this
    unfold Img
    rw [e]
    rcases hv with rfl | rfl
    · rw [nf_list]
    · rw [nf_tuple]
  · simp only [wf]; rw [wfs_iff]; exact fun w hm => by obtain ⟨_, hg⟩ := all w hm; exact hg.wf
  · simp only [noTuple]; rw [noTuples_iff]; exact fun w hm => by obtain ⟨_, hg⟩ := all w hm; exact hg.noTuple
  · simp only [okV]; rw [okVs_iff]; exact fun w hm => by obtain ⟨_, hg⟩ := all w hm; exact hg.ok
  · intro p hp
    simp only [V.subs, List.mem_cons, reduceCtorEq, false_or] at hp
    obtain ⟨w, hm, hp⟩ := mem_subss.1 hp
    obtain ⟨_, hg⟩ := all w hm
    exact hg.refs p hp

theorem keys_noRef (d : List (String × V)) (p : Nat) : V.ref p ∉ subss (d.map (fun f => V.str f.1)) := by
  intro h
  obtain ⟨w, hw, h⟩ := mem_subss.1 h
  obtain ⟨f, _, rfl⟩ := List.mem_map.1 hw
  simp [V.subs] at h

theorem reads_dict (ks vs : List V) (names : List String) (hl : ks.length = vs.length) (hs : strings ks = some names) (hnd : names.Nodup) (hty : "type" ∉ names)
    (ts : List V) (E : Nat → Except PyErr V) (hts : encs E vs = .ok ts) (h : ∀ v ∈ vs, ∀ t, enc E v = .ok t → Reads env M S m0 v t) :
    Reads env M S m0 (.dict ks vs) (mkDict (sortFields (names.zip ts))) := by
  intro st ψ hC
  obtain ⟨rfl, he⟩ := encs_encd E vs ts hts
  have hln : names.length = vs.length := by rw [← hl, strings_eq hs]; simp
  have hfst : (names.zip vs).map Prod.fst = names := List.map_fst_zip (by omega)
  obtain ⟨d, st', ψ', h1, h2, h3, h4, h5, h6, h7⟩ := fields_read (env := env) (M := M) (m0 := m0) (encd E) (names.zip vs) (by rw [hfst]; exact hnd) (by
    intro f hf
    have := (List.of_mem_zip (a := f.1) (b := f.2) hf).2
    exact h _ this _ (he _ this)) st ψ hC
  rw [onSnd_zip] at h1
  have hdn : d.map Prod.fst = (sortFields (names.zip vs)).map Prod.fst := h4
  have hdty : "type" ∉ d.map Prod.fst := by
    rw [h4, ((sortFields_perm _).map Prod.fst).mem_iff, hfst]; exact hty
  have hdnd : (d.map Prod.fst).Nodup := by
    rw [h4, ((sortFields_perm _).map Prod.fst).nodup_iff, hfst]; exact hnd
  refine ⟨mkDict d, st', ψ', ?_, h2, h3, ?_, ?_, ?_, ?_, ?_⟩
  · rw [h1]
    unfold loadAndIndex
    rw [get?_none_of hdty]
  · unfold Img via
    rw [tr_mkDict, nf_mkDict, ← onSnd_sort, sortFields_idem, onSnd_comp, nf_dict hs]
    have e : onSnd (fun v => nf (tr (fun p => .ref (ψ' p)) .link v)) d = onSnd nf (sortFields (names.zip vs)) := h5
    rw [e, ← onSnd_sort, onSnd_zip, sortFields_idem]
  · unfold mkDict
    simp only [wf]
    refine ⟨⟨by simp, d.map Prod.fst, mkDict_keys d, hdnd, hdty⟩, ?_⟩
    rw [wfs_iff]
    intro w hm
    obtain ⟨e, hm', rfl⟩ := List.mem_map.1 hm
    obtain ⟨_, hg⟩ := h6 e hm'
    exact hg.wf
  · unfold mkDict
    simp only [noTuple]; rw [noTuples_iff]
    intro w hm
    obtain ⟨e, hm', rfl⟩ := List.mem_map.1 hm
    obtain ⟨_, hg⟩ := h6 e hm'
    exact hg.noTuple
  · unfold mkDict
    simp only [okV]; rw [okVs_iff]
    intro w hm
    obtain ⟨e, hm', rfl⟩ := List.mem_map.1 hm
    obtain ⟨_, hg⟩ := h6 e hm'
    exact hg.ok
  · intro p hp
    unfold mkDict at hp
    simp only [V.subs, List.mem_cons, reduceCtorEq, false_or, List.mem_append] at hp
    rcases hp with hp | hp
    · exact absurd hp (keys_noRef d p)
    · obtain ⟨w, hm, hp⟩ := mem_subss.1 hp
      obtain ⟨e, hm', rfl⟩ := List.mem_map.1 hm
      obtain ⟨_, hg⟩ := h6 e hm'
      exact hg.refs p hp

theorem reads_obj (t : String) (ns : List String) (vs : List V) (hw : wf (.obj t ns vs)) (ho : okV env M (.obj t ns vs)) (ts : List V)
    (E : Nat → Except PyErr V) (hts : encs E vs = .ok ts) (h : ∀ v ∈ vs, ∀ t, enc E v = .ok t → Reads env M S m0 v t) :
    Reads env M S m0 (.obj t ns vs) (mkDict (sortFields (("type", .str t) :: ns.zip ts))) := by
  intro st ψ hC
  obtain ⟨rfl, he⟩ := encs_encd E vs ts hts
  have ho' := ho
  have hw' := hw
  simp only [okV] at ho'
  simp only [wf] at hw'
  obtain ⟨⟨c, hc, hns, hlen, _⟩, _⟩ := ho'
  obtain ⟨n1, n2, n3⟩ := table_names t c hc
  have hfst : (ns.zip vs).map Prod.fst = ns := List.map_fst_zip (by omega)
  obtain ⟨d, st', ψ', h1, h2, h3, h4⟩ := record_read (env := env) (M := M) (m0 := m0) t (encd E) (fun s => by simp [encd, enc]) (ns.zip vs)
    (by rw [hfst, hns]; exact n1) (by rw [hfst, hns]; exact n2) (by rw [hfst, hns]; exact n3) (by
    intro f hf
    have := (List.of_mem_zip (a := f.1) (b := f.2) hf).2
    exact h _ this _ (he _ this)) st ψ hC
  rw [onSnd_zip] at h1
  obtain ⟨ws, w1, w2⟩ := construct_good h3 t ns vs hw ho c hc d (fun n v hnv => h4 (n, v) hnv)
  refine ⟨.obj t ns ws, st', ψ', ?_, h2, h3, w2⟩
  rw [h1]
  unfold loadAs
  rw [if_neg]
  · simp only [hc, w1]
  · intro e
    subst e
    exact table_not_link c hc

mutual
/-- reading what was written of a value, provided that reading an entity gives copies -/
theorem reads_value (E : Nat → Except PyErr V) (hE : ∀ o, S o → ∀ t, E o = .ok t → Reads env M S m0 (.ref o) t) (v : V) (hw : wf v) (ho : okV env M v)
    (hr : ∀ q, V.ref q ∈ v.subs → S q) (t : V) (ht : enc E v = .ok t) : Reads env M S m0 v t := by
  cases v with
  | none => simp only [enc, Except.ok.injEq] at ht; subst ht; exact reads_leaf _ (.inl rfl) (fun _ => rfl)
  | bool b => simp only [enc, Except.ok.injEq] at ht; subst ht; exact reads_leaf _ (.inl rfl) (fun _ => rfl)
  | int i => simp only [enc, Except.ok.injEq] at ht; subst ht; exact reads_leaf _ (.inl rfl) (fun _ => rfl)
  | float q => simp only [enc, Except.ok.injEq] at ht; subst ht; exact reads_leaf _ (.inl rfl) (fun _ => rfl)
  | str s => simp only [enc, Except.ok.injEq] at ht; subst ht; exact reads_leaf _ (.inl rfl) (fun _ => rfl)
  | ref o => exact hE o (hr o (self_mem_subs _)) t (by simpa [enc] using ht)
  | link s i => simp only [enc, Except.ok.injEq] at ht; subst ht; exact reads_link s i
  | list l =>
    simp only [wf] at hw
    simp only [okV] at ho
    simp only [enc] at ht
    split at ht
    · cases ht
    · rename_i ts hts
      cases ht
      exact reads_list l ts (.inl rfl) E hts (reads_values E hE l hw ho (fun q hq => hr q (by simp [V.subs, hq])))
  | tuple l =>
    simp only [wf] at hw
    simp only [okV] at ho
    simp only [enc] at ht
    split at ht
    · cases ht
    · rename_i ts hts
      cases ht
      exact reads_list l ts (.inr rfl) E hts (reads_values E hE l hw ho (fun q hq => hr q (by simp [V.subs, hq])))
  | dict ks vs =>
    simp only [wf] at hw
    simp only [okV] at ho
    simp only [enc] at ht
    obtain ⟨⟨hl, names, hs, hnd, hty⟩, hw⟩ := hw
    simp only [hs] at ht
    split at ht
    · cases ht
    · rename_i ts hts
      cases ht
      exact reads_dict ks vs names hl hs hnd hty ts E hts (reads_values E hE vs hw ho (fun q hq => hr q (by simp [V.subs, hq])))
  | obj t' ns vs =>
    have hw' := hw
    have ho' := ho
    simp only [wf] at hw'
    simp only [okV] at ho'
    simp only [enc] at ht
    split at ht
    · cases ht
    · rename_i ts hts
      cases ht
      exact reads_obj t' ns vs hw ho ts E hts (reads_values E hE vs hw'.2 ho'.2 (fun q hq => hr q (by simp [V.subs, hq])))
termination_by structural v
theorem reads_values (E : Nat → Except PyErr V) (hE : ∀ o, S o → ∀ t, E o = .ok t → Reads env M S m0 (.ref o) t) (l : List V) (hw : wfs l) (ho : okVs env M l)
    (hr : ∀ q, V.ref q ∈ subss l → S q) : ∀ v ∈ l, ∀ t, enc E v = .ok t → Reads env M S m0 v t := by
  cases l with
  | nil => simp
  | cons v vs =>
    simp only [wfs] at hw
    simp only [okVs] at ho
    intro u hu t ht
    rcases List.mem_cons.1 hu with e | hu
    · rw [e] at ht ⊢
      exact reads_value E hE v hw.1 ho.1 (fun q hq => hr q (by simp [subss, hq])) t ht
    · exact reads_values E hE vs hw.2 ho.2 (fun q hq => hr q (by simp [subss, hq])) u hu t ht
termination_by structural l
end

/-- the attributes of an entity of a well-typed memory are accepted as they are -/
theorem asDict_ok (hM : WellTyped env M) {o : Nat} {x : EObj} (hx : M[o]? = some x) : ∀ f ∈ asDict M x, okV env M f.2 := by
  obtain ⟨vals, own, hs, hown⟩ := hM o x hx
  intro f hf
  rw [asDict_eq hs] at hf
  rcases List.mem_cons.1 hf with rfl | hf
  · simp [okV]
  · rcases List.mem_cons.1 hf with rfl | hf
    · simp only [uidsDict, okV]
      rw [okVs_iff]
      intro v hv
      obtain ⟨p, _, rfl⟩ := List.mem_map.1 hv
      simp [okV]
    · rcases List.mem_append.1 hf with hf | hf
      · exact hs.ok _ (List.of_mem_zip (a := f.1) (b := f.2) hf).2
      · by_cases hc : x.cls = .ingredientRun
        · obtain ⟨name, labels, hpart, q1, q2⟩ := ingredientPart_eq hM hs hc (hown hc)
          rw [hpart] at hf
          simp only [List.mem_cons, List.not_mem_nil, or_false] at hf
          rcases hf with rfl | rfl
          · exact (nameLike_clean (env := env) (m := M) q1).1.ok
          · exact (labelsLike_clean (env := env) (m := M) q2).1.ok
        · unfold ingredientPart at hf
          rw [if_neg hc] at hf
          simp at hf

/-- the names in `as_dict` -/
theorem asDict_names (hM : WellTyped env M) {o : Nat} {x : EObj} (hx : M[o]? = some x) : ∃ fs, asDict M x = ("type", .str (Equal.typ x.cls)) :: fs ∧
    (fs.map Prod.fst).Nodup ∧ "type" ∉ fs.map Prod.fst ∧ "self" ∉ fs.map Prod.fst := by
  obtain ⟨vals, own, hs, hown⟩ := hM o x hx
  have hp : (ingredientPart M x own).map Prod.fst = if x.cls = .ingredientRun then ["name", "labels"] else [] := by
    by_cases hc : x.cls = .ingredientRun
    · obtain ⟨name, labels, hpart, q1, q2⟩ := ingredientPart_eq hM hs hc (hown hc)
      rw [hpart, if_pos hc]
      rfl
    · unfold ingredientPart
      rw [if_neg hc, if_neg hc]
      rfl
  refine ⟨_, asDict_eq hs M, ?_⟩
  have e : (("uids", uidsDict x.uids) :: (((eargs x.cls).map EArg.name).zip vals ++ ingredientPart M x own)).map Prod.fst =
      "uids" :: ((eargs x.cls).map EArg.name ++ if x.cls = .ingredientRun then ["name", "labels"] else []) := by
    rw [List.map_cons, List.map_append, List.map_fst_zip (by simp [hs.len]), hp]
  rw [e]
  generalize x.cls = c
  cases c <;> decide +kernel

/-- **reading what was written of an entity gives a copy** -/
theorem reads_ref (hM : WellTyped env M) (hS : ∀ o, S o → ∃ x, M[o]? = some x ∧ ∀ f ∈ asDict M x, wf f.2 ∧ ∀ q, V.ref q ∈ f.2.subs → S q) (k o : Nat)
    (ho : S o) (t : V) (ht : encRef M k o = .ok t) : Reads env M S m0 (.ref o) t := by
  induction k generalizing o t with
  | zero => simp [encRef] at ht
  | succ k ih =>
    obtain ⟨x, hx, hf⟩ := hS o ho
    simp only [encRef, hx] at ht
    split at ht
    · cases ht
    · rename_i ts hts
      cases ht
      obtain ⟨rfl, he⟩ := encs_encd _ _ _ hts
      intro st ψ hC
      obtain ⟨fs, e, n1, n2, n3⟩ := asDict_names hM hx
      have hin : ∀ f ∈ fs, f ∈ asDict M x := fun f hf => by rw [e]; simp [hf]
      obtain ⟨d, st', ψ', h1, h2, h3, h4⟩ := record_read (env := env) (M := M) (m0 := m0) (Equal.typ x.cls) (encd (encRef M k)) (fun s => by simp [encd, enc]) fs n1 n2 n3 (by
        intro f hf'
        refine reads_value (S := S) (encRef M k) (fun o ho t ht => ih o ho t ht) f.2 (hf f (hin f hf')).1 (asDict_ok hM hx f (hin f hf')) (hf f (hin f hf')).2 _ ?_
        exact he _ (List.mem_map.2 ⟨f, hin f hf', rfl⟩)) st ψ hC
      obtain ⟨mem', f1, f2, f3, f4⟩ := entity_step h3 hM hx ho (fun f hf' => (hf f hf').1) d (by
        intro f hf' hty
        rw [e] at hf'
        rcases List.mem_cons.1 hf' with rfl | hf'
        · exact absurd rfl hty
        · exact h4 f hf')
      obtain ⟨t1, t2, t3⟩ := typ_entity x.cls
      refine ⟨.ref st'.mem.length, { mem := mem', index := addIndex env st'.mem.length ((mem'[st'.mem.length]?.map EObj.uids).getD []) st'.index },
        upd ψ' st'.mem.length o, ?_, h2.trans f4, f3, ?_⟩
      · have e1 : mkDict (sortFields (((asDict M x).map Prod.fst).zip (((asDict M x).map Prod.snd).map (encd (encRef M k))))) =
            mkDict (sortFields (("type", .str (Equal.typ x.cls)) :: onSnd (encd (encRef M k)) fs)) := by
          rw [← onSnd_zip, zip_fst_snd, e]
          simp [onSnd, encd, enc]
        rw [e1, h1]
        unfold loadAs
        rw [if_neg t1]
        simp only [t2, t3, f1]
      · refine ⟨by simp [Img, via, tr, upd], by simp [wf], by simp [noTuple], by simp [okV], ?_⟩
        intro p hp
        simp only [V.subs, List.mem_cons, V.ref.injEq, List.not_mem_nil, or_false] at hp
        subst hp
        exact ⟨h3.len, by simp [f2]⟩

/-- **`raw_loads` of what `raw_dumps` wrote is a copy** -/
theorem raw_copy (hM : WellTyped env M) (hS : ∀ o, S o → ∃ x, M[o]? = some x ∧ ∀ f ∈ asDict M x, wf f.2 ∧ ∀ q, V.ref q ∈ f.2.subs → S q) {v t : V}
    (hw : wf v) (ho : okV env M v) (hr : ∀ q, V.ref q ∈ v.subs → S q) (ht : rawDumps M v = .ok t) (hm : WellTyped env m0) :
    ∃ u m' ψ, rawLoads env m0 t = .ok (u, m') ∧ Copies env M S m0 ψ m' ∧ Good env m' m0.length ψ v u := by
  have h := reads_value (m0 := m0) (S := S) (encRef M (M.length + 1)) (fun o ho t ht => reads_ref hM hS _ o ho t ht) v hw ho hr t ht
  obtain ⟨u, st', ψ', h1, h2, h3, h4⟩ := h { mem := m0, index := [] } (fun p => p)
    ⟨hm, Nat.le_refl _, fun _ _ => rfl, fun p z hp hz => absurd (List.getElem?_eq_some_iff.1 hz).1 (by simp; omega)⟩
  exact ⟨u, st'.mem, ψ', by simp only [rawLoads, h1], h3, h4⟩

end

end Verif.Json
