import Verif.Props.Load
/-!
# Values up to the types of numbers

`_substitute` may replace a number by an equal one of another type (`1`, `1.0`, `True`), see `C41_numbers_counterexample`. `nf v` is a
normal form: numbers are floats, dictionaries are sorted. The setters store the same, up to this, for arguments that are the same up to
this.
-/

set_option linter.unusedSimpArgs false
set_option linter.unusedVariables false
set_option linter.unusedSectionVars false

namespace Verif.Json
open Verif.Py Verif.Value Verif.Schema

mutual
/-- all numbers as floats -/
def cn : V → V
  | .bool b => .float (if b then 1 else 0)
  | .int i => .float i
  | .list l => .list (cns l)
  | .tuple l => .tuple (cns l)
  | .dict ks vs => .dict ks (cns vs)
  | .obj t ns vs => .obj t ns (cns vs)
  | .link s i => .link s i
  | .ref o => .ref o
  | .none => .none
  | .float q => .float q
  | .str s => .str s
def cns : List V → List V
  | [] => []
  | v :: vs => cn v :: cns vs
end

theorem cns_eq (l : List V) : cns l = l.map cn := by
  induction l with
  | nil => rfl
  | cons v vs ih => simp [cns, ih]

/-- the normal form -/
def nf (v : V) : V := tr .ref .link (cn v)

theorem nf_list (l : List V) : nf (.list l) = .list (l.map nf) := by
  simp only [nf, cn, tr, trs_eq, cns_eq, List.map_map]; rfl

theorem nf_tuple (l : List V) : nf (.tuple l) = .list (l.map nf) := by
  simp only [nf, cn, tr, trs_eq, cns_eq, List.map_map]; rfl

theorem nf_obj (t : String) (ns : List String) (vs : List V) : nf (.obj t ns vs) = .obj t ns (vs.map nf) := by
  simp only [nf, cn, tr, trs_eq, cns_eq, List.map_map]; rfl

theorem nf_dict {ks vs : List V} {names : List String} (h : strings ks = some names) :
    nf (.dict ks vs) = mkDict (sortFields (names.zip (vs.map nf))) := by
  simp only [nf, cn, tr, trs_eq, cns_eq, List.map_map, sortDict, h]; rfl

theorem nf_num {u : V} {q : Rat} : nf u = .float q ↔ num u = some q := by
  cases u <;> simp [nf, cn, tr, num, sortDict]
  split <;> simp [mkDict]

theorem nf_str {u : V} {s : String} : nf u = .str s ↔ u = .str s := by
  cases u <;> simp [nf, cn, tr, sortDict]
  split <;> simp [mkDict]

theorem nf_none {u : V} : nf u = .none ↔ u = .none := by
  cases u <;> simp [nf, cn, tr, sortDict]
  split <;> simp [mkDict]

theorem nf_link {u : V} {s i : String} : nf u = .link s i ↔ u = .link s i := by
  cases u <;> simp [nf, cn, tr, sortDict]
  split <;> simp [mkDict]

theorem nf_ref {u : V} {o : Nat} : nf u = .ref o ↔ u = .ref o := by
  cases u <;> simp [nf, cn, tr, sortDict]
  split <;> simp [mkDict]

theorem nf_obj_inv {u : V} {t : String} {ns : List String} {vs : List V} (h : nf u = .obj t ns vs) : ∃ us, u = .obj t ns us ∧ us.map nf = vs := by
  cases u <;> simp only [nf, cn, tr, sortDict, reduceCtorEq, V.obj.injEq] at h
  · split at h <;> simp [mkDict] at h
  · rename_i t' ns' us
    obtain ⟨rfl, rfl, h⟩ := h
    refine ⟨us, rfl, ?_⟩
    rw [← h, trs_eq, cns_eq, List.map_map]; rfl

theorem nf_list_inv {u : V} {l : List V} (ht : noTuple u) (h : nf u = .list l) : ∃ us, u = .list us ∧ us.map nf = l := by
  cases u <;> simp only [nf, cn, tr, sortDict, reduceCtorEq, V.list.injEq] at h
  · rename_i us
    refine ⟨us, rfl, ?_⟩
    rw [← h, trs_eq, cns_eq, List.map_map]; rfl
  · simp [noTuple] at ht
  · split at h <;> simp [mkDict] at h

theorem noTuples_iff (l : List V) : noTuples l ↔ ∀ v ∈ l, noTuple v := by
  induction l with
  | nil => simp [noTuples]
  | cons v vs ih => simp [noTuples, ih]

theorem nf_scalars {us vs : List V} (hs : ∀ v ∈ vs, isStr v = true) (h : us.map nf = vs.map nf) : us = vs := by
  induction vs generalizing us with
  | nil => simpa using h
  | cons v vs ih =>
    cases us with
    | nil => simp at h
    | cons u us =>
      simp only [List.map_cons, List.cons.injEq] at h
      have hv := hs v (by simp)
      cases v <;> simp [isStr] at hv
      rename_i s
      have e : nf (.str s) = .str s := by simp [nf, cn, tr]
      rw [e, nf_str] at h
      rw [h.1, ih (fun w hw => hs w (by simp [hw])) h.2]

theorem total_nf {us vs : List V} (h : us.map nf = vs.map nf) : total us = total vs := by
  induction vs generalizing us with
  | nil => simp at h; subst h; rfl
  | cons v vs ih =>
    cases us with
    | nil => simp at h
    | cons u us =>
      simp only [List.map_cons, List.cons.injEq] at h
      have e : num u = num v := by
        cases hv : num v with
        | some q => rw [nf_num.2 hv] at h; exact nf_num.1 h.1
        | none =>
          cases hu : num u with
          | none => rfl
          | some q => rw [nf_num.2 hu] at h; rw [nf_num.1 h.1.symm] at hv; cases hv
      simp [total, e, ih h.2]

/-- the setters that check strings and numbers store the same for arguments that are the same up to the types of numbers -/
theorem plain_sim (env : Env) (m : Mem) (k : Kind) (hk : plainKind k = true) (u v : V) (ht : noTuple u) (h : nf u = nf v)
    (hv : conv env m k v = .ok v) : conv env m k u = .ok v := by
  have leaf : (∃ s, v = .str s) ∨ v = .none → conv env m k u = .ok v := by
    rintro (⟨s, rfl⟩ | rfl)
    · have e : nf (.str s) = .str s := by simp [nf, cn, tr]
      rw [e, nf_str] at h
      rw [h]; exact hv
    · have e : nf .none = .none := by simp [nf, cn, tr]
      rw [e, nf_none] at h
      rw [h]; exact hv
  have lst : ∀ l : List V, v = .list l → (∀ x ∈ l, isStr x = true) → conv env m k u = .ok v := by
    intro l hl hs
    subst hl
    rw [nf_list] at h
    obtain ⟨us, rfl, hus⟩ := nf_list_inv ht h
    rw [nf_scalars hs hus]
    exact hv
  have nums : ∀ q, num v = some q → num u = some q := by
    intro q hq
    rw [nf_num.2 hq] at h
    exact nf_num.1 h
  cases k <;> simp [plainKind] at hk <;> simp only [conv] at hv ⊢ <;> simp only [conv] at leaf lst
  · apply leaf
    cases v <;> simp [convStr] at hv ⊢
  · apply leaf
    cases v <;> simp [convStr] at hv ⊢
  · apply leaf
    cases v <;> simp [convOptStr] at hv ⊢
  · apply leaf
    cases v <;> simp [convFormula] at hv ⊢
  · apply leaf
    cases v <;> simp [convInchi] at hv ⊢
  · apply leaf
    cases v <;> simp [convUnits] at hv ⊢
  · unfold convNominal at hv ⊢
    split at hv
    · rename_i q hq
      rw [nums q hq]
      exact hv
    · cases hv
  · unfold convBound at hv ⊢
    split at hv
    · rename_i q hq
      rw [nums q hq]
      exact hv
    · split at hv <;> cases hv
  · unfold convIntLike at hv ⊢
    split at hv
    · rename_i q hq
      rw [nums q hq]
      exact hv
    · cases hv
  · unfold convIntBound at hv ⊢
    split at hv
    · rename_i q hq
      rw [nums q hq]
      exact hv
    · split at hv <;> cases hv
  · have key : ∀ l : List V, (match strings l with
        | some ss => (.ok (.list ((ss.foldr insertStr []).map .str)) : Except PyErr V)
        | none => if someUnhashable l then .error .typeError else .error .valueError) = .ok v →
        ∃ ss : List String, v = .list (ss.map .str) := by
      intro l h
      split at h
      · cases h
        exact ⟨_, rfl⟩
      · split at h <;> cases h
    have : ∃ ss : List String, v = .list (ss.map .str) := by
      cases v with
      | none => simp [convStrSet] at hv
      | list l => exact key l hv
      | tuple l => exact key l hv
      | _ => simp [convStrSet] at hv
    obtain ⟨ss, e⟩ := this
    apply lst _ e
    intro x hx
    obtain ⟨s, _, rfl⟩ := List.mem_map.1 hx
    rfl
  · apply leaf
    cases v <;> simp [convEnum] at hv ⊢
  · have : v = .list (members v) ∧ ∀ x ∈ members v, isStr x = true := by
      unfold convList at hv
      split at hv
      · rename_i hp
        injection hv with hv
        exact ⟨hv.symm, List.all_eq_true.1 hp⟩
      · cases hv
    exact lst _ this.1 this.2

theorem Stable.nth {env : Env} {m : Mem} {t : String} {ns : List String} {vs : List V} {c : Cls} (hc : Dict.get? table t = some c)
    (h : Stable env m t ns vs) (i : Nat) (hi : i < vs.length) (hi' : i < c.args.length) : conv env m (c.args[i]).kind vs[i] = .ok vs[i] := by
  obtain ⟨c', hc', hns, hl, hcv, _⟩ := h
  rw [hc] at hc'
  cases hc'
  apply hcv (c.args[i], vs[i])
  apply List.mem_of_getElem? (i := i)
  rw [List.getElem?_zip_eq_some]
  exact ⟨List.getElem?_eq_getElem hi', List.getElem?_eq_getElem hi⟩

theorem map_nth {us vs : List V} (h : us.map nf = vs.map nf) (i : Nat) (hi : i < us.length) (hi' : i < vs.length) : nf us[i] = nf vs[i] := by
  have : (us.map nf)[i]'(by simpa using hi) = (vs.map nf)[i]'(by simpa using hi') := by simp only [h]
  simpa using this

/-- bounds are determined by their normal form -/
theorem bounds_eq (env : Env) (m m' : Mem) (b b' : V) (hb : isTyp boundsTypes b = true) (ho : okV env m b) (ho' : okV env m' b')
    (ht : noTuple b') (h : nf b' = nf b) : b' = b := by
  cases b <;> simp [isTyp] at hb
  rename_i t ns vs
  rw [nf_obj] at h
  obtain ⟨us, rfl, hus⟩ := nf_obj_inv h
  simp only [okV] at ho ho'
  obtain ⟨hst, _⟩ := ho
  obtain ⟨hst', _⟩ := ho'
  obtain ⟨c, hc, hns, hl, _⟩ := id hst
  have all : ∀ e ∈ table, e.1 ∈ boundsTypes → ∀ a ∈ e.2.args, plainKind a.kind = true := by decide +kernel
  have hp := all _ (Dict.mem_of_get? hc) hb
  congr 1
  simp only [noTuple] at ht
  rw [noTuples_iff] at ht
  have hlu : us.length = vs.length := by simpa using congrArg List.length hus
  apply List.ext_getElem hlu
  intro i h1 h2
  have h3 : i < c.args.length := by
    have : ns.length = c.args.length := by rw [hns]; simp [Cls.names]
    omega
  have e1 := hst.nth hc i h2 h3
  have e2 := hst'.nth hc i h1 h3
  have pl := hp _ (List.getElem_mem h3)
  have e1' : conv env m' (c.args[i]).kind vs[i] = .ok vs[i] := by
    rw [← e1]
    revert pl
    cases (c.args[i]).kind <;> simp [plainKind, conv]
  have e3 := plain_sim env m' _ pl _ _ (ht _ (List.getElem_mem h1)) (map_nth hus i h1 h2) e1'
  rw [e2] at e3
  exact Except.ok.inj e3

theorem pair_sim (env : Env) (m : Mem) (u v : V) (h : nf u = nf v) (ht : noTuple u) (hov : okV env m v) (hou : okV env m u)
    (hp : PairOk env m v) : u = v := by
  obtain ⟨a, b, rfl, ha, hb⟩ := hp
  rw [nf_list] at h
  obtain ⟨us, rfl, hus⟩ := nf_list_inv ht h
  simp only [noTuple] at ht
  rw [noTuples_iff] at ht
  simp only [okV] at hov hou
  rw [okVs_iff] at hov hou
  match us, hus with
  | [a', b'], hus =>
    simp only [List.map_cons, List.map_nil, List.cons.injEq, and_true] at hus
    have ea : a' = a := by
      rcases ha with ha | ha
      · cases a <;> simp [isLink] at ha
        exact nf_link.1 (by rw [hus.1]; simp [nf, cn, tr])
      · cases a <;> simp [isCls] at ha
        exact nf_ref.1 (by rw [hus.1]; simp [nf, cn, tr])
    have eb : b' = b := by
      rcases hb with rfl | ⟨hb, _⟩
      · exact nf_none.1 (by rw [hus.2]; simp [nf, cn, tr])
      · exact bounds_eq env m m b b' hb (hov b (by simp)) (hou b' (by simp)) (ht b' (by simp)) hus.2
    rw [ea, eb]
  | [], hus => simp at hus
  | [_], hus => simp at hus
  | _ :: _ :: _ :: _, hus => simp at hus

/-- the setters that keep what they are given do so with an equal one -/
theorem conv_sim_other (env : Env) (m : Mem) (k : Kind) (hr : rangeOk k) (u v : V) (h : nf u = nf v) (hwv : wf v) (hwu : wf u)
    (htu : noTuple u) (hov : okV env m v) (hou : okV env m u) (hv : conv env m k v = .ok v) (hp : ¬ plainKind k = true) : conv env m k u = .ok u := by
  have typ : ∀ ts, isTyp ts v = true → isTyp ts u = true := by
    intro ts hts
    cases v <;> simp [isTyp] at hts
    rw [nf_obj] at h
    obtain ⟨us, rfl, _⟩ := nf_obj_inv h
    simpa [isTyp] using hts
  have dct : ∀ ks vs, v = .dict ks vs → ∃ ks' vs', u = .dict ks' vs' ∧ (∃ names, strings ks' = some names) ∧ total vs' = total vs := by
    rintro ks vs rfl
    simp only [wf] at hwv
    obtain ⟨⟨hl, names, hs, _⟩, _⟩ := hwv
    rw [nf_dict hs] at h
    cases u with
    | dict ks' vs' =>
      simp only [wf] at hwu
      obtain ⟨⟨hl', names', hs', _⟩, _⟩ := hwu
      rw [nf_dict hs'] at h
      refine ⟨ks', vs', rfl, ⟨_, hs'⟩, ?_⟩
      simp only [mkDict, V.dict.injEq] at h
      have e1 : names.length = vs.length := by rw [← hl, strings_eq hs]; simp
      have e2 : names'.length = vs'.length := by rw [← hl', strings_eq hs']; simp
      have p1 := (sortFields_perm (names.zip (vs.map nf))).map Prod.snd
      have p2 := (sortFields_perm (names'.zip (vs'.map nf))).map Prod.snd
      rw [List.map_snd_zip (by simp; omega)] at p1 p2
      rw [h.2] at p2
      have p : (vs'.map nf).Perm (vs.map nf) := p2.symm.trans p1
      have nn : ∀ x : V, num (nf x) = num x := by
        intro x
        cases x with
        | dict ks vs =>
          simp only [nf, cn, tr, sortDict]
          cases strings ks <;> rfl
        | _ => simp [nf, cn, tr, num]
      have tn : ∀ l : List V, total (l.map nf) = total l := by
        intro l
        induction l with
        | nil => rfl
        | cons x xs ih => simp [total, ih, nn]
      rw [← tn vs', ← tn vs]
      exact total_perm p
    | _ => simp [nf, cn, tr, mkDict] at h
  cases k <;> simp [plainKind] at hp <;> simp only [conv] at hv ⊢
  · cases v with
    | none =>
      have : u = .none := nf_none.1 (by rw [h]; simp [nf, cn, tr])
      subst this
      rfl
    | str s => simp [convProbabilities] at hv
    | dict ks vs =>
      obtain ⟨ks', vs', rfl, ⟨names', hs'⟩, e⟩ := dct ks vs rfl
      simp only [convProbabilities] at hv ⊢
      rw [e]
      split at hv
      · rename_i q hq
        split at hv
        · cases hv
        · rename_i hle
          rw [if_neg hle, if_pos]
          rw [strings_eq hs']
          simp [isStr]
      · cases hv
    | _ => simp [convProbabilities] at hv
  · cases v with
    | dict ks vs =>
      obtain ⟨ks', vs', rfl, _⟩ := dct ks vs rfl
      rfl
    | none => simp [convQuantities] at hv
    | list l => cases l <;> simp [convQuantities] at hv
    | _ => simp [convQuantities] at hv
  · unfold convObj at hv ⊢
    split at hv
    · cases hv
    · split at hv
      · rename_i hn hts
        have := typ _ hts
        rw [if_neg (by rintro rfl; simp [isTyp] at this), if_pos this]
      · cases hv
  · unfold convOptObj at hv ⊢
    split at hv
    · rename_i e
      subst e
      have : u = .none := nf_none.1 (by rw [h]; simp [nf, cn, tr])
      subst this
      rfl
    · split at hv
      · rename_i hn hts
        have := typ _ hts
        rw [if_neg (by rintro rfl; simp [isTyp] at this), if_pos this]
      · cases hv
  · unfold convList at hv
    split at hv
    · rename_i ts hts
      injection hv with hv
      generalize members v = l at hv hts
      subst hv
      rw [nf_list] at h
      obtain ⟨us, rfl, hus⟩ := nf_list_inv htu h
      unfold convList
      have e : members (.list us) = us := rfl
      rw [e, if_pos]
      rw [List.all_eq_true] at hts ⊢
      intro x hx
      obtain ⟨i, hi, rfl⟩ := List.getElem_of_mem hx
      have hlu : us.length = l.length := by simpa using congrArg List.length hus
      have hn := map_nth hus i hi (by omega)
      have hl := hts _ (List.getElem_mem (by omega : i < l.length))
      revert hl hn
      generalize us[i] = a
      generalize l[i]'(by omega) = b
      intro hb hn
      cases b <;> simp [isTyp] at hn
      rw [nf_obj] at hb
      obtain ⟨us, rfl, _⟩ := nf_obj_inv hb
      simpa [isTyp] using hn
    · cases hv
  · unfold convTarget at hv
    split at hv
    · rename_i hcase
      have : u = v := by
        rcases hcase with rfl | hl | hcl
        · exact nf_none.1 (by rw [h]; simp [nf, cn, tr])
        · cases v <;> simp [isLink] at hl
          exact nf_link.1 (by rw [h]; simp [nf, cn, tr])
        · cases v <;> simp [isCls] at hcl
          exact nf_ref.1 (by rw [h]; simp [nf, cn, tr])
      subst this
      unfold convTarget
      rw [if_pos hcase]
    · cases hv
  · obtain ⟨l, rfl, hl⟩ := convRanges_out env m _ hr v v hv
    rw [nf_list] at h
    obtain ⟨us, rfl, hus⟩ := nf_list_inv htu h
    have : us = l := by
      have hlu : us.length = l.length := by simpa using congrArg List.length hus
      apply List.ext_getElem hlu
      intro i h1 h2
      simp only [noTuple, okV] at htu hov hou
      rw [noTuples_iff] at htu
      rw [okVs_iff] at hov hou
      exact pair_sim env m _ _ (map_nth hus i h1 h2) (htu _ (List.getElem_mem h1)) (hov _ (List.getElem_mem h2)) (hou _ (List.getElem_mem h1))
        (hl _ (List.getElem_mem h2))
    subst this
    exact hv

/-- what a setter stores as it is, it also accepts with numbers of other types; it then stores the argument or the former -/
theorem conv_sim (env : Env) (m : Mem) (k : Kind) (hr : rangeOk k) (u v : V) (h : nf u = nf v) (hwv : wf v) (hwu : wf u)
    (htu : noTuple u) (hov : okV env m v) (hou : okV env m u) (hv : conv env m k v = .ok v) :
    ∃ w, conv env m k u = .ok w ∧ (w = u ∨ w = v) := by
  by_cases hp : plainKind k = true
  · exact ⟨v, plain_sim env m k hp u v htu h hv, .inr rfl⟩
  · exact ⟨u, conv_sim_other env m k hr u v h hwv hwu htu hov hou hv hp, .inl rfl⟩

end Verif.Json
