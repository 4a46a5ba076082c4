import Verif.Props.InplaceObjects
/-!
# What setters and constructors accept when entities are replaced by links
-/

set_option linter.unusedSimpArgs false
set_option linter.unusedVariables false
set_option linter.unusedSectionVars false

namespace Verif.Inplace
open Verif.Py Verif.Value Verif.Schema Verif.Json Verif.Substitute

theorem put_scalar (f : Nat → V) (g : String → String → V) {v : V} (h : scalar v = true) : put f g v = v := by
  cases v <;> simp [scalar] at h <;> simp [put]

theorem puts_scalar (f : Nat → V) (g : String → String → V) {l : List V} (h : ∀ v ∈ l, scalar v = true) : puts f g l = l := by
  rw [puts_eq]
  conv => rhs; rw [← List.map_id l]
  exact List.map_congr_left (fun v hv => put_scalar f g (h v hv))

theorem isTyp_put (f : Nat → V) (g : String → String → V) {ts : List String} {v : V} (h : isTyp ts v = true) : isTyp ts (put f g v) = true := by
  cases v <;> simp [isTyp] at h
  simpa [put, isTyp] using h

theorem plain_fixed (env : Env) (m : Mem) (k : Kind) (hk : plainKind k = true) (f : Nat → V) (g : String → String → V) (v v0 : V)
    (h : conv env m k v0 = .ok v) : put f g v = v := by
  rcases plain_out env m k hk v v0 h with hs | ⟨l, rfl, hl⟩
  · exact put_scalar f g hs
  · simp only [put]
    rw [puts_scalar f g hl]

theorem isCls_put {m m' : Mem} {f : Nat → V} {g : String → String → V} {v : V} (h : Compat m m' f g v) {cs : List ECls}
    (hc : isLink v = true ∨ isCls m cs v = true) : isLink (put f g v) = true ∨ isCls m' cs (put f g v) = true := by
  have := isCls_tr h hc
  cases v <;> first | exact this | (rcases hc with hc | hc <;> simp [isLink, isCls] at hc)

theorem pair_put {env : Env} {m m' : Mem} {f : Nat → V} {g : String → String → V} {p : V} (h : Compat m m' f g p) (ho : okV env m p)
    (hp : PairOk env m p) : PairOk env m' (put f g p) := by
  obtain ⟨a, b, rfl, ha, hb⟩ := hp
  have ha' := isCls_put (h.sub (list_mem_subs (v := a) (by simp))) ha
  simp only [okV, okVs] at ho
  refine ⟨put f g a, put f g b, by simp [put, puts], ha', ?_⟩
  rcases hb with rfl | ⟨hb, hall⟩
  · left; rfl
  · right
    rw [put_bounds hb ho.2.1]
    refine ⟨hb, ?_⟩
    rcases allows_tr (h.sub (list_mem_subs (v := a) (by simp))) hall with h' | ⟨h1, h2⟩
    · rcases ha with ha | ha <;> cases a <;> simp [isLink, isCls] at ha <;> exact h'
    · rcases ha with ha | ha
      · rw [h1] at ha; cases ha
      · rw [h2] at ha; cases ha

/-- a stored value is, with other entities and links in it, stored as it is -/
theorem conv_put (env : Env) (m m' : Mem) (k : Kind) (hr : rangeOk k) (f : Nat → V) (g : String → String → V) (v : V)
    (ho : okV env m v) (hc : Compat m m' f g v) (h : conv env m k v = .ok v) : conv env m' k (put f g v) = .ok (put f g v) := by
  by_cases hp : plainKind k = true
  · rw [plain_fixed env m k hp f g v v h]
    cases k <;> simp [plainKind] at hp <;> exact h
  cases k <;> simp [plainKind] at hp <;> simp only [conv] at h ⊢
  · cases v with
    | none => rfl
    | str s => simp [convProbabilities] at h
    | dict ks vs =>
      simp only [convProbabilities] at h
      split at h
      · rename_i q hq
        split at h
        · cases h
        · rename_i hle
          split at h
          · rename_i hs
            simp only [put, convProbabilities]
            have hvs : puts f g vs = vs := puts_scalar f g (total_scalar hq)
            rw [hvs, hq]
            simp only
            rw [if_neg hle, if_pos hs]
          · cases h
      · cases h
    | _ => simp [convProbabilities] at h
  · cases v with
    | none => simp [convQuantities] at h
    | dict ks vs =>
      simp only [put, convQuantities] at h ⊢
    | list l => cases l <;> simp [convQuantities] at h
    | _ => simp [convQuantities] at h
  · unfold convObj at h
    split at h
    · cases h
    · split at h
      · rename_i hn ht
        have ht' := isTyp_put f g ht
        unfold convObj
        rw [if_neg, if_pos ht']
        intro e
        rw [e] at ht'
        simp [isTyp] at ht'
      · cases h
  · unfold convOptObj at h
    split at h
    · rename_i e
      subst e; rfl
    · split at h
      · rename_i hn ht
        have ht' := isTyp_put f g ht
        unfold convOptObj
        rw [if_neg, if_pos ht']
        intro e
        rw [e] at ht'
        simp [isTyp] at ht'
      · cases h
  · unfold convList at h
    split at h
    · rename_i ts ht
      injection h with h
      generalize members v = l at h ht
      subst h
      have hall : (puts f g l).all (isTyp ts) = true := by
        rw [puts_eq]
        simp only [List.all_map, List.all_eq_true, Function.comp_apply]
        intro x hx
        exact isTyp_put f g (List.all_eq_true.1 ht x hx)
      have e : put f g (.list l) = .list (puts f g l) := by simp only [put]
      rw [e]
      unfold convList
      have e' : members (.list (puts f g l)) = puts f g l := rfl
      rw [e', if_pos hall]
    · cases h
  · unfold convTarget at h
    split at h
    · rename_i ht
      unfold convTarget
      rw [if_pos]
      rcases ht with rfl | ht
      · left; rfl
      · exact .inr (isCls_put hc ht)
    · cases h
  · obtain ⟨l, rfl, hl⟩ := convRanges_out env m _ hr v v h
    simp only [put, puts_eq]
    apply convRanges_self
    intro p hp
    obtain ⟨q, hq, rfl⟩ := List.mem_map.1 hp
    simp only [okV] at ho
    rw [okVs_iff] at ho
    exact pair_put (hc.sub (list_mem_subs hq)) (ho q hq) (hl q hq)

theorem inOrder_put (f : Nat → V) (g : String → String → V) (e : PyErr) (l : List (String × V)) (h : Schema.inOrder e l = .ok ()) :
    Schema.inOrder e (onSnd (put f g) l) = .ok () := by
  have key : ∀ n q, (Dict.get? l n).bind Schema.num = some q → (Dict.get? (onSnd (put f g) l) n).bind Schema.num = some q := by
    intro n q hq
    rw [get?_onSnd]
    cases e : Dict.get? l n with
    | none => simp [e] at hq
    | some v =>
      simp [e] at hq ⊢
      rw [put_scalar f g (num_scalar hq), hq]
  unfold Schema.inOrder at h
  split at h
  · rename_i a b ha hb
    simp only [Schema.inOrder, key _ _ ha, key _ _ hb]
    exact h
  · cases h

mutual
theorem okV_put (env : Env) (m m' : Mem) (f : Nat → V) (g : String → String → V) (v : V) (ho : okV env m v)
    (hc : Compat m m' f g v) : okV env m' (put f g v) := by
  cases v with
  | list l =>
    simp only [okV, put] at *
    exact okVs_put env m m' f g l ho (fun w hw => hc.sub (list_mem_subs hw))
  | tuple l =>
    simp only [okV, put] at *
    exact okVs_put env m m' f g l ho (fun w hw => hc.sub (by
      simp only [V.subs, List.mem_cons]
      right
      rw [mem_subss]
      exact ⟨w, hw, self_mem_subs w⟩))
  | dict ks vs =>
    simp only [okV, put] at *
    exact okVs_put env m m' f g vs ho (fun w hw => hc.sub (by
      simp only [V.subs, List.mem_cons, List.mem_append]
      right; right
      rw [mem_subss]
      exact ⟨w, hw, self_mem_subs w⟩))
  | obj t ns vs =>
    simp only [okV] at ho
    obtain ⟨⟨c, hct, hns, hlen, hcv, hord⟩, ho⟩ := ho
    have hsub : ∀ w ∈ vs, w ∈ (V.obj t ns vs).subs := fun w hw => by
      simp only [V.subs, List.mem_cons]
      right
      rw [mem_subss]
      exact ⟨w, hw, self_mem_subs w⟩
    have ih := okVs_put env m m' f g vs ho (fun w hw => hc.sub (hsub w hw))
    simp only [put, okV]
    refine ⟨⟨c, hct, hns, by rw [puts_eq]; simpa using hlen, ?_, ?_⟩, ih⟩
    · intro p hp
      rw [puts_eq, List.zip_map_right] at hp
      obtain ⟨q, hq, rfl⟩ := List.mem_map.1 hp
      have hmem := (List.of_mem_zip hq)
      rw [okVs_iff] at ho
      exact conv_put env m m' _ (table_kinds t c hct q.1 hmem.1).1 f g q.2 (ho _ hmem.2) (hc.sub (hsub _ hmem.2)) (hcv q hq)
    · rw [puts_eq, ← onSnd_zip]
      unfold checkOrder at hord ⊢
      split at hord
      · exact inOrder_put f g _ _ hord
      · rfl
  | link s i =>
    obtain ⟨s', i', e⟩ := hc.links s i (self_mem_subs _)
    simp [put, e, okV]
  | ref o =>
    rcases hc.refs o (self_mem_subs _) with ⟨s, i, e⟩ | ⟨o', e, _⟩ <;> simp [put, e, okV]
  | _ => simp [put, okV]
termination_by structural v
theorem okVs_put (env : Env) (m m' : Mem) (f : Nat → V) (g : String → String → V) (l : List V) (ho : okVs env m l)
    (hc : ∀ w ∈ l, Compat m m' f g w) : okVs env m' (puts f g l) := by
  cases l with
  | nil => simp [puts, okVs]
  | cons v vs =>
    simp only [okVs, puts] at *
    exact ⟨okV_put env m m' f g v ho.1 (hc v (by simp)), okVs_put env m m' f g vs ho.2 (fun w hw => hc w (by simp [hw]))⟩
termination_by structural l
end

end Verif.Inplace
