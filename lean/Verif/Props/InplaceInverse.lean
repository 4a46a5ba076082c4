import Verif.Props.InplaceLinks
import Verif.Props.InplaceLinksEx
import Verif.Props.Inverse
/-!
# C62: links in place, and back
-/

set_option linter.unusedSimpArgs false
set_option linter.unusedVariables false
set_option linter.unusedSectionVars false

namespace Verif.Inplace
open Verif.Py Verif.Value Verif.Schema Verif.Json Verif.Substitute

/-! ## Values -/

section
variable {f f' : Nat → V} {g g' : String → String → V}

mutual
/-- only what occurs matters -/
theorem put_congr (v : V) (hf : ∀ p, V.ref p ∈ v.subs → f p = f' p) (hg : ∀ s i, V.link s i ∈ v.subs → g s i = g' s i) : put f g v = put f' g' v := by
  cases v with
  | list l => simp only [put, puts_congr l (fun o ho => hf o (by simp [V.subs, ho])) (fun s i ho => hg s i (by simp [V.subs, ho]))]
  | tuple l => simp only [put, puts_congr l (fun o ho => hf o (by simp [V.subs, ho])) (fun s i ho => hg s i (by simp [V.subs, ho]))]
  | dict ks vs => simp only [put, puts_congr vs (fun o ho => hf o (by simp [V.subs, ho])) (fun s i ho => hg s i (by simp [V.subs, ho]))]
  | obj t ns vs => simp only [put, puts_congr vs (fun o ho => hf o (by simp [V.subs, ho])) (fun s i ho => hg s i (by simp [V.subs, ho]))]
  | link s i => exact hg s i (by simp [V.subs])
  | ref o => exact hf o (by simp [V.subs])
  | _ => simp [put]
termination_by structural v
theorem puts_congr (l : List V) (hf : ∀ p, V.ref p ∈ subss l → f p = f' p) (hg : ∀ s i, V.link s i ∈ subss l → g s i = g' s i) : puts f g l = puts f' g' l := by
  cases l with
  | nil => rfl
  | cons v vs =>
    simp only [puts, put_congr v (fun o ho => hf o (by simp [subss, ho])) (fun s i ho => hg s i (by simp [subss, ho])),
      puts_congr vs (fun o ho => hf o (by simp [subss, ho])) (fun s i ho => hg s i (by simp [subss, ho]))]
termination_by structural l
end

mutual
/-- where an entity in the result comes from; keys are not put anything in -/
theorem put_refs {p : Nat} (v : V) (hv : Plain v) (h : V.ref p ∈ (put f g v).subs) :
    (∃ q, V.ref q ∈ v.subs ∧ V.ref p ∈ (f q).subs) ∨ ∃ s i, V.link s i ∈ v.subs ∧ V.ref p ∈ (g s i).subs := by
  cases v with
  | list l =>
    simp only [put, V.subs, List.mem_cons, reduceCtorEq, false_or, Plain] at h hv ⊢
    exact puts_refs l hv h
  | tuple l => simp [Plain] at hv
  | dict ks vs =>
    simp only [put, V.subs, List.mem_cons, List.mem_append, reduceCtorEq, false_or, Plain] at h hv ⊢
    rcases h with h | h
    · obtain ⟨⟨names, rfl, _, _⟩, _⟩ := hv
      obtain ⟨w, hw, h⟩ := mem_subss.1 h
      obtain ⟨n, _, rfl⟩ := List.mem_map.1 hw
      simp [V.subs] at h
    · rcases puts_refs vs hv.2 h with ⟨q, h1, h2⟩ | ⟨s, i, h1, h2⟩
      · exact .inl ⟨q, .inr h1, h2⟩
      · exact .inr ⟨s, i, .inr h1, h2⟩
  | obj t ns vs =>
    simp only [put, V.subs, List.mem_cons, reduceCtorEq, false_or, Plain] at h hv ⊢
    exact puts_refs vs hv.2 h
  | link s i => exact .inr ⟨s, i, by simp [V.subs], h⟩
  | ref o => exact .inl ⟨o, by simp [V.subs], h⟩
  | _ => simp [put, V.subs] at h
termination_by structural v
theorem puts_refs {p : Nat} (l : List V) (hl : Plains l) (h : V.ref p ∈ subss (puts f g l)) :
    (∃ q, V.ref q ∈ subss l ∧ V.ref p ∈ (f q).subs) ∨ ∃ s i, V.link s i ∈ subss l ∧ V.ref p ∈ (g s i).subs := by
  cases l with
  | nil => simp [puts, subss] at h
  | cons v vs =>
    simp only [puts, subss, List.mem_append, Plains] at h hl ⊢
    rcases h with h | h
    · rcases put_refs v hl.1 h with ⟨q, h1, h2⟩ | ⟨s, i, h1, h2⟩
      · exact .inl ⟨q, .inl h1, h2⟩
      · exact .inr ⟨s, i, .inl h1, h2⟩
    · rcases puts_refs vs hl.2 h with ⟨q, h1, h2⟩ | ⟨s, i, h1, h2⟩
      · exact .inl ⟨q, .inr h1, h2⟩
      · exact .inr ⟨s, i, .inr h1, h2⟩
termination_by structural l
end
end

open Classical in
/-- plain values stay plain -/
theorem plain_toward {lower : String → String} {scope : Option String} {fallback : Bool} {m : Mem} {top v : V} (hp : Plain v)
    (ha : ∀ p, V.ref p ∈ v.subs → Able lower scope fallback m top p) : Plain (put (toward lower scope fallback m top) .link v) := by
  rw [put_congr (f' := fun p => if Able lower scope fallback m top p then toward lower scope fallback m top p else .ref p) (g' := .link) v
    (fun p hp => by rw [if_pos (ha p hp)]) (fun _ _ _ => rfl)]
  refine plain_put (f := fun p => if Able lower scope fallback m top p then toward lower scope fallback m top p else .ref p) (g := .link)
    ⟨fun p => ?_, fun s i => trivial⟩ v hp
  simp only
  split
  · rename_i h
    exact toward_pointer h
  · trivial

/-- the link that the entity `p` is replaced by means `p` -/
def Finds (env : Env) (index : Dict (String × String) Nat) (m : Mem) (scope : Option String) (fallback : Bool) (p : Nat) : Prop :=
  ∃ y s i, m[p]? = some y ∧ toLink env.lower scope fallback y = .ok (.link s i) ∧ Dict.get? index (s, i) = some p

theorem Finds.linkOf {env : Env} {index : Dict (String × String) Nat} {m : Mem} {scope : Option String} {fallback : Bool} {p : Nat}
    (h : Finds env index m scope fallback p) : resolve index (linkOf env.lower scope fallback m p) = .ref p := by
  obtain ⟨y, s, i, h1, h2, h3⟩ := h
  simp only [Substitute.linkOf, h1, h2, resolve, put, meaning, h3]

theorem resolve_toward {env : Env} {index : Dict (String × String) Nat} {m : Mem} {scope : Option String} {fallback : Bool} {top v : V}
    (h : ∀ p, V.ref p ∈ v.subs → Finds env index m scope fallback p) : resolve index (put (toward env.lower scope fallback m top) .link v) = resolve index v := by
  unfold resolve
  rw [put_put]
  refine put_congr v (fun p hp => ?_) (fun s i _ => rfl)
  unfold toward
  split
  · rfl
  · exact (h p hp).linkOf

theorem resolve_fixed {index : Dict (String × String) Nat} {v : V} (h : ∀ s i, V.link s i ∈ v.subs → Dict.get? index (s, i) = none) : resolve index v = v :=
  put_fixed v (fun _ _ => rfl) (fun s i hs => by simp [meaning, h s i hs])

/-! ## Entities -/

theorem resolveMem_skel (index : Dict (String × String) Nat) (m : Mem) : (resolveMem index m).map skel = m.map skel := by
  unfold resolveMem
  rw [List.map_map]
  refine List.map_congr_left (fun x _ => ?_)
  simp only [Function.comp_apply, skel, List.map_map, Prod.mk.injEq, true_and]
  refine List.map_congr_left (fun f _ => ?_)
  simp only [Function.comp_apply]
  split <;> rfl

theorem name_plain {v : V} (h : nameLike v) : Plain v := by
  rcases h with rfl | h
  · simp [Plain]
  · cases v <;> simp [isStr] at h <;> simp [Plain]

theorem labels_plain {v : V} (h : labelsLike v) : Plain v := by
  rcases h with rfl | ⟨l, rfl, h⟩
  · simp [Plain]
  · simp only [Plain]
    exact (plains_iff l).2 (fun w hw => name_plain (.inr (h w hw)))

/-- what is seen of an entity, if its name and labels are stored where they were only looked up before -/
theorem asDict_kept {env : Env} {m m2 : Mem} (hW : WellTyped env m) (hsk : m2.map skel = m.map skel)
    (hat : ∀ p y a, m[p]? = some y → a ∉ backNames → attrAt m2 p a = attrAt m p a ∨
      isName y.cls a ∧ attrAt m2 p a = (attrAt m p a).map (fun u => getattr m y (a, u)))
    {q : Nat} {y : EObj} (hy : m[q]? = some y) : ∃ y2, m2[q]? = some y2 ∧ skel y2 = skel y ∧ asDict m2 y2 = asDict m y := by
  obtain ⟨y', hy', hs⟩ := skel_at hsk hy
  refine ⟨y', hy', hs, ?_⟩
  have e1 : y'.cls = y.cls := congrArg Prod.fst hs
  have e2 : y'.fields.map Prod.fst = y.fields.map Prod.fst := congrArg (fun s => s.2.2) hs
  have e3 : y'.uids = y.uids := congrArg (fun s => s.2.1) hs
  have hnames := typed_names hW hy
  have hnd : (y.fields.map Prod.fst).Nodup := by rw [hnames]; exact names_nodup _
  have hnd' : (y'.fields.map Prod.fst).Nodup := by rw [e2]; exact hnd
  simp only [asDict, e1, e3, List.cons.injEq, true_and]
  have hl : ∀ (z : EObj), (z.fields.map Prod.fst).Nodup → (z.fields.filter (fun f => decide (f.1 ∉ skip y.cls))) =
      ((z.fields.map Prod.fst).filter (fun n => decide (n ∉ skip y.cls))).map (fun n => (n, (Dict.get? z.fields n).getD .none)) := by
    intro z hz
    conv => lhs; rw [fields_eq hz]
    rw [List.filter_map]
    rfl
  rw [hl y' hnd', hl y hnd, e2, List.map_map, List.map_map]
  refine List.map_congr_left (fun n hn => ?_)
  obtain ⟨hn, hns⟩ := List.mem_filter.1 hn
  have hns : n ∉ skip y.cls := by simpa using hns
  have hb : n ∉ backNames := fun hb => hns (names_skip _ _ (by rw [← hnames]; exact hn) hb)
  obtain ⟨⟨n', u⟩, hf, e⟩ := List.mem_map.1 hn
  simp only at e
  subst e
  have hgu : Dict.get? y.fields n' = some u := Dict.get?_of_mem hnd hf
  have hau : attrAt m q n' = some u := by simp only [attrAt, hy, hgu]
  have hg : ∀ w, attrAt m2 q n' = some w → Dict.get? y'.fields n' = some w := fun w hw => by simpa only [attrAt, hy'] using hw
  simp only [Function.comp_apply, hgu, Option.getD_some, Prod.mk.injEq, true_and]
  by_cases hname : isName y.cls n'
  · have hcase : ∃ w, Dict.get? y'.fields n' = some w ∧ (w = u ∨ w = getattr m y (n', u)) := by
      rcases hat q y n' hy hb with e | ⟨_, e⟩
      · exact ⟨u, hg _ (by rw [e, hau]), .inl rfl⟩
      · exact ⟨_, hg _ (by rw [e, hau]; rfl), .inr rfl⟩
    obtain ⟨w, hw, hw'⟩ := hcase
    rw [hw, Option.getD_some]
    have hspec : Dict.get? y'.fields "_spec" = Dict.get? y.fields "_spec" := by
      rcases hat q y "_spec" hy (by decide) with e | ⟨h, _⟩
      · simpa only [attrAt, hy', hy] using e
      · simp [isName] at h
    unfold getattr at hw' ⊢
    rw [if_pos (show y.cls = .ingredientRun ∧ _ from hname)] at hw' ⊢
    rw [if_pos (show y'.cls = .ingredientRun ∧ _ from ⟨by rw [e1]; exact hname.1, hname.2⟩), hspec]
    cases hs : Dict.get? y.fields "_spec" with
    | none => simp only [hs] at hw' ⊢; rcases hw' with e | e <;> exact e
    | some v =>
      cases v with
      | ref p =>
        simp only [hs] at hw' ⊢
        cases hz : m[p]? with
        | none =>
          have : m2[p]? = none := by
            rw [List.getElem?_eq_none_iff] at hz ⊢
            have := congrArg List.length hsk
            simp only [List.length_map] at this
            omega
          simp only [hz, this] at hw' ⊢
          rcases hw' with e | e <;> exact e
        | some z =>
          obtain ⟨z', hz', hskz⟩ := skel_at hsk hz
          have ez : z'.cls = z.cls := congrArg Prod.fst hskz
          simp only [hz, hz', ez] at hw' ⊢
          split
          · rename_i hzc
            rcases hat p z n' hz hb with e | ⟨h, _⟩
            · simp only [attrAt, hz', hz] at e
              rw [e]
            · rw [hzc] at h
              exact absurd h.1 (by decide)
          · rename_i hzc
            rw [if_neg hzc] at hw'
            rcases hw' with e | e <;> exact e
      | _ => simp only [hs] at hw' ⊢; rcases hw' with e | e <;> exact e
  · have := (hat q y n' hy hb).resolve_right (fun h => hname h.1)
    rw [hg _ (by rw [this, hau]), Option.getD_some]
    unfold getattr
    rw [if_neg (show ¬ (y'.cls = .ingredientRun ∧ _) from fun e => hname ⟨by rw [← e1]; exact e.1, e.2⟩), if_neg (show ¬ (y.cls = .ingredientRun ∧ _) from hname)]

section
variable {env : Env} {same : Mem → Nat → Nat → Bool} {scope : Option String} {fallback : Bool} {m : Mem} {o : Nat} {index : Dict (String × String) Nat}

/-- after the first half, an attribute with its links resolved is what it would have been without the first half, except for names -/
theorem half {x : EObj} (hL : LinkReady env same scope fallback m o) (hx : m[o]? = some x) {m' : Mem} (h : LoopL env scope fallback m o x [] m')
    (hf : ∀ a u p, a ∉ backNames → attrAt m o a = some u → V.ref p ∈ u.subs → Finds env index m scope fallback p) {q : Nat} {a : String} (ha : a ∉ backNames) {u' : V}
    (hu : attrAt m' q a = some u') : (∃ u, attrAt m q a = some u ∧ resolve index u' = resolve index u ∧ (Plain u → Plain u')) ∨
      q = o ∧ isName x.cls a ∧ ∃ u, attrAt m o a = some u ∧ u' = getattr m x (a, u) := by
  by_cases hq : q = o
  · subst hq
    rw [h.here a ha] at hu
    simp only [List.not_mem_nil, if_false] at hu
    cases h0 : attrAt m q a with
    | none => rw [h0] at hu; split at hu <;> cases hu
    | some u =>
      rw [h0] at hu
      split at hu
      · rename_i hn
        simp only [Option.map_some, Option.some.injEq] at hu
        exact .inr ⟨rfl, hn, u, rfl, hu.symm⟩
      · simp only [Option.map_some, Option.some.injEq] at hu
        subst hu
        refine .inl ⟨u, rfl, resolve_toward (hf a u · ha h0), fun hp => plain_toward hp (fun p hp => ?_)⟩
        by_cases e : p = q
        · exact .inl (by rw [e])
        · exact .inr (hL.able a u p ha h0 hp e)
  · rw [h.other q a hq ha] at hu
    exact .inl ⟨u', hu, rfl, id⟩

theorem half_name {x : EObj} (hL : LinkReady env same scope fallback m o) (hx : m[o]? = some x) {a : String} (hn : isName x.cls a) {u : V} (hu : attrAt m o a = some u) :
    resolve index (getattr m x (a, u)) = getattr m x (a, u) ∧ (∀ p, V.ref p ∉ (getattr m x (a, u)).subs) ∧ Plain (getattr m x (a, u)) := by
  have h := getattr_names hL.typed hx hn.1 hu
  rcases hn.2 with e | e
  · exact ⟨put_name (h.1 e), name_subs (h.1 e), name_plain (h.1 e)⟩
  · exact ⟨put_labels (h.2 e), labels_subs (h.2 e), labels_plain (h.2 e)⟩

/-- all that the second half needs -/
theorem half_ready {x : EObj} (hL : LinkReady env same scope fallback m o) (hS : Substitutable env index m (.ref o)) (hx : m[o]? = some x) {m' : Mem}
    (h : LoopL env scope fallback m o x [] m')
    (hf : ∀ a u p, a ∉ backNames → attrAt m o a = some u → V.ref p ∈ u.subs → Finds env index m scope fallback p) :
    Substitutable env index m' (.ref o) ∧ (∀ q, Reached index m' (.ref o) q ↔ Reached index m (.ref o) q) ∧ (Single index m → Single index m') := by
  have hsk := h.sk
  have hlen : m'.length = m.length := skel_length hsk
  have hleads : ∀ q p, Leads index m' q p → Leads index m q p := by
    rintro q p ⟨a, u', ha, hu, hp⟩
    rcases half hL hx h hf ha hu with ⟨u, h0, e, _⟩ | ⟨rfl, hn, u, h0, rfl⟩
    · exact ⟨a, u, ha, h0, by rw [← e]; exact hp⟩
    · obtain ⟨e, hno, _⟩ := half_name (index := index) hL hx hn h0
      rw [e] at hp
      exact absurd hp (hno p)
  have hleads' : ∀ q p, Leads index m q p → Leads index m' q p := by
    rintro q p ⟨a, u, ha, hu, hp⟩
    obtain ⟨u', hu'⟩ : ∃ u', attrAt m' q a = some u' := by
      by_cases hq : q = o
      · subst hq
        rw [h.here a ha, hu]
        split
        · split <;> exact ⟨_, rfl⟩
        · split <;> exact ⟨_, rfl⟩
      · rw [h.other q a hq ha]
        exact ⟨u, hu⟩
    rcases half hL hx h hf ha hu' with ⟨u0, h0, e, _⟩ | ⟨rfl, hn, u0, h0, rfl⟩
    · rw [hu] at h0
      cases h0
      exact ⟨a, u', ha, hu', by rw [e]; exact hp⟩
    · exfalso
      have := fits_of_typed hL.typed (o := q) (c := x.cls) (by simp [clsAt, hx]) hu ha
      rcases hn.2 with e | e
      · have := this.name hn.1 e
        rw [resolve, put_name this] at hp
        exact name_subs this p hp
      · have := this.labels hn.1 e
        rw [resolve, put_labels this] at hp
        exact labels_subs this p hp
  have hreach : ∀ q, Reached index m' (.ref o) q ↔ Reached index m (.ref o) q := by
    intro q
    constructor
    · intro hq
      induction hq with
      | here h => exact .here h
      | next _ hl ih => exact .next ih (hleads _ _ hl)
    · intro hq
      induction hq with
      | here h => exact .here h
      | next _ hl ih => exact .next ih (hleads' _ _ hl)
  have hto : ∀ q p, LeadsTo index m' q p → LeadsTo index m q p := by
    intro q p hl
    induction hl with
    | one hl => exact .one (hleads _ _ hl)
    | more hl _ ih => exact .more (hleads _ _ hl) ih
  have hskM : (resolveMem index m').map skel = (resolveMem index m).map skel := by rw [resolveMem_skel, resolveMem_skel, hsk]
  have hM : ∀ q a v, a ∉ backNames → attrAt (resolveMem index m') q a = some v → attrAt (resolveMem index m) q a = some v ∨
      q = o ∧ isName x.cls a ∧ ∃ u, attrAt m o a = some u ∧ v = getattr m x (a, u) := by
    intro q a v ha hv
    rw [resolveMem_attr _ _ _ ha] at hv ⊢
    cases hu : attrAt m' q a with
    | none => rw [hu] at hv; cases hv
    | some u' =>
      rw [hu] at hv
      simp only [Option.map_some, Option.some.injEq] at hv
      subst hv
      rcases half hL hx h hf ha hu with ⟨u, h0, e, _⟩ | ⟨hq, hn, u, h0, rfl⟩
      · exact .inl (by rw [h0, Option.map_some, e])
      · exact .inr ⟨hq, hn, u, h0, (half_name hL hx hn h0).1⟩
  have hM' : ∀ q a v, a ∉ backNames → (∀ c, ¬ isName c a) → attrAt (resolveMem index m) q a = some v → attrAt (resolveMem index m') q a = some v := by
    intro q a v ha hn hv
    rw [resolveMem_attr _ _ _ ha] at hv ⊢
    by_cases hq : q = o
    · subst hq
      rw [h.here a ha, if_neg (hn _)]
      simp only [List.not_mem_nil, if_false]
      cases hu : attrAt m q a with
      | none => rw [hu] at hv; cases hv
      | some u =>
        rw [hu] at hv
        rw [← hv]
        simp only [Option.map_some, resolve_toward (hf a u · ha hu)]
    · rw [h.other q a hq ha]
      exact hv
  have hg : Grows (resolveMem index m) (resolveMem index m') := grows_between hskM (fun q b hb => hM' q _ b (by decide) (by simp [isName]) hb)
  have htM : WellTyped env (resolveMem index m') := by
    refine typed_of_fits (fun q y hy => ?_)
    obtain ⟨y0, hy0, hsk⟩ := skel_at hskM.symm hy
    have e1 : y0.cls = y.cls := congrArg Prod.fst hsk
    have e2 : y0.fields.map Prod.fst = y.fields.map Prod.fst := congrArg (fun s => s.2.2) hsk
    have e3 : y0.uids = y.uids := congrArg (fun s => s.2.1) hsk
    refine ⟨by rw [← e1, ← e2]; exact typed_names hS.typed' hy0, ?_, fun a v ha hv => ?_⟩
    · obtain ⟨_, _, hs, _⟩ := hS.typed' q y0 hy0
      rw [← e3]
      exact hs.uids
    · rcases hM q a v ha hv with h0 | ⟨rfl, hn, u, h0, rfl⟩
      · exact (fits_of_typed hS.typed' (o := q) (by simp [clsAt, hy0, e1]) h0 ha).grows hg
      · have hc : y.cls = x.cls := by
          have : clsAt (resolveMem index m') q = clsAt m q := clsAt_skel (by rw [resolveMem_skel, h.sk]) q
          simpa [clsAt, hy, hx] using this
        have hgn := getattr_names hL.typed hx hn.1 h0
        have hraw : kindOf y.cls a = .raw := by
          rw [hc, hn.1]
          rcases hn.2 with rfl | rfl <;> decide +kernel
        refine ⟨by rw [hraw]; rfl, ?_, fun _ e => hgn.1 e, fun _ e => hgn.2 e⟩
        rcases hn.2 with e | e
        · exact name_ok (hgn.1 e)
        · exact labels_ok (hgn.2 e)
  refine ⟨⟨typed_links hL hx h, htM, hS.plain, okV_grows hg _ hS.ok, fun q hq => by rw [hlen]; exact hS.there q ((hreach q).1 hq), fun q a u' hq ha hu => ?_,
    fun q hq hl => hS.acyclic q ((hreach q).1 hq) (hto _ _ hl)⟩, hreach, fun hs a c b h1 h2 => ?_⟩
  · rcases half hL hx h hf ha hu with ⟨u, h0, _, hp⟩ | ⟨rfl, hn, u, h0, rfl⟩
    · exact hp (hS.plains q a u ((hreach q).1 hq) ha h0)
    · exact (half_name (index := index) hL hx hn h0).2.2
  · have hpt : ∀ a b, Points (resolveMem index m') "_output_material" a b → Points (resolveMem index m) "_output_material" a b := by
      intro a b hp
      obtain ⟨c, there, e1, e2, e3⟩ := points_attr.1 hp
      have hb := back_spec c there _ e2
      have hthere : there ∉ backNames := by
        have : ∀ c : ECls, ∀ e, backRef c = some e → e.1 ∉ backNames := by
          intro c e he
          cases c <;> simp [backRef] at he <;> subst he <;> decide
        exact this c _ e2
      have hc : clsAt (resolveMem index m) a = some c := by rw [← clsAt_skel hskM a]; exact e1
      refine points_attr.2 ⟨c, there, hc, e2, ?_⟩
      rcases hM a there _ hthere e3 with e | ⟨rfl, hn, _⟩
      · exact e
      · have : clsAt (resolveMem index m) a = some x.cls := by rw [clsAt_skel (resolveMem_skel index m) a]; simp [clsAt, hx]
        rw [this] at hc
        cases hc
        exact absurd hn hb.2
    exact hs a c b (hpt _ _ h1) (hpt _ _ h2)

end

/-! ## C62 -/

/-- C62: `substitute_links(x, inplace=True)` and after it `substitute_objects(x, index, inplace=True)`, for an entity `x` and an index in which the links put into `x` mean the entities that
were there. `x` itself is returned both times. After it all is as after `substitute_objects` alone: every attribute of `x`, and of the entities one gets to from it, has the links in it
resolved, and other entities have what they had; but the name and labels of an ingredient run, which were looked up in its spec, are stored too. Two-way links are as they should be, if
no two materials come out of the same process when links are resolved.

Missing: as for C60 and C61, which see. -/
theorem C62_entity_partial {env : Env} {same : Mem → Nat → Nat → Bool} {scope : Option String} {fallback : Bool} {m : Mem} {o : Nat} {index : Dict (String × String) Nat}
    (hL : LinkReady env same scope fallback m o) (hS : Substitutable env index m (.ref o))
    (hf : ∀ a u p, a ∉ backNames → attrAt m o a = some u → V.ref p ∈ u.subs → Finds env index m scope fallback p) (k : Nat) (hk : m.length < k) :
    ∃ m' m'', linksInplace env same scope fallback m (.ref o) = .ok (.ref o, m') ∧ objectsInplace env same index k m' (.ref o) = .ok (.ref o, m'') ∧
      m''.map skel = m.map skel ∧ WellTyped env m'' ∧
      (∀ q a, a ∉ backNames → (q ≠ o ∨ ∀ x, m[o]? = some x → ¬ isName x.cls a) → (Reached index m (.ref o) q → attrAt m'' q a = (attrAt m q a).map (resolve index)) ∧
        (¬ Reached index m (.ref o) q → attrAt m'' q a = attrAt m q a)) ∧
      (∀ x a, m[o]? = some x → isName x.cls a → attrAt m'' o a = (attrAt m o a).map (fun u => getattr m x (a, u))) ∧ (Single index m → TwoWay m'') := by
  obtain ⟨x, m', hx, hrun, h⟩ := run_links hL
  obtain ⟨hS', hreach, hsingle⟩ := half_ready hL hS hx h hf
  have hlen : m'.length = m.length := skel_length h.sk
  obtain ⟨m'', e, hsk, hT, hat, htwo⟩ := C60_objects_inplace_partial env same index m' (.ref o) hS' k (by omega)
  refine ⟨m', m'', hrun, e, hsk.trans h.sk, hT, fun q a ha hn => ⟨fun hq => ?_, fun hq => ?_⟩, fun x' a hx' hn => ?_, fun hs => htwo (hsingle hs) h.two⟩
  · rw [(hat q a ha).1 ((hreach q).2 hq)]
    by_cases hqo : q = o
    · subst hqo
      rw [h.here a ha, if_neg ((hn.resolve_left (fun e => e rfl)) x hx)]
      simp only [List.not_mem_nil, if_false]
      cases hu : attrAt m q a with
      | none => rfl
      | some u => simp only [Option.map_some, resolve_toward (hf a u · ha hu)]
    · rw [h.other q a hqo ha]
  · have hqo : q ≠ o := by
      rintro rfl
      exact hq (.here (by simp [resolve, put, V.subs]))
    rw [(hat q a ha).2 (fun hr => hq ((hreach q).1 hr)), h.other q a hqo ha]
  · rw [hx] at hx'
    cases hx'
    have ha : a ∉ backNames := by rcases hn.2 with rfl | rfl <;> decide
    rw [(hat o a ha).1 (.here (by simp [resolve, put, V.subs])), h.here a ha, if_pos hn]
    simp only [List.not_mem_nil, if_false]
    cases hu : attrAt m o a with
    | none => rfl
    | some u => simp only [Option.map_some, (half_name hL hx hn hu).1]

/-- C62: if moreover none of the entities one gets to has a link that the index knows, everything is seen as it was before. -/
theorem C62_restores_partial {env : Env} {same : Mem → Nat → Nat → Bool} {scope : Option String} {fallback : Bool} {m : Mem} {o : Nat} {index : Dict (String × String) Nat}
    (hL : LinkReady env same scope fallback m o) (hS : Substitutable env index m (.ref o))
    (hf : ∀ a u p, a ∉ backNames → attrAt m o a = some u → V.ref p ∈ u.subs → Finds env index m scope fallback p)
    (hn : ∀ q a u s i, Reached index m (.ref o) q → a ∉ backNames → attrAt m q a = some u → V.link s i ∈ u.subs → Dict.get? index (s, i) = none) (k : Nat) (hk : m.length < k) :
    ∃ m' m'', linksInplace env same scope fallback m (.ref o) = .ok (.ref o, m') ∧ objectsInplace env same index k m' (.ref o) = .ok (.ref o, m'') ∧
      m''.length = m.length ∧ (∀ (q : Nat) (y : EObj), m[q]? = some y → ∃ y', m''[q]? = some y' ∧ skel y' = skel y ∧ asDict m'' y' = asDict m y) ∧ (Single index m → TwoWay m'') := by
  obtain ⟨m', m'', h1, h2, hsk, _, hat, hname, htwo⟩ := C62_entity_partial hL hS hf k hk
  refine ⟨m', m'', h1, h2, skel_length hsk, fun q y hy => asDict_kept hL.typed hsk (fun p z a hz ha => ?_) hy, htwo⟩
  by_cases hc : p = o ∧ isName z.cls a
  · obtain ⟨rfl, hc⟩ := hc
    exact .inr ⟨hc, hname z a hz hc⟩
  · left
    have hor : p ≠ o ∨ ∀ x, m[o]? = some x → ¬ isName x.cls a := by
      by_cases hp : p = o
      · right
        intro x hx hi
        subst hp
        rw [hz] at hx
        cases hx
        exact hc ⟨rfl, hi⟩
      · exact .inl hp
    obtain ⟨g1, g2⟩ := hat p a ha hor
    by_cases hr : Reached index m (.ref o) p
    · rw [g1 hr]
      cases hu : attrAt m p a with
      | none => rfl
      | some u => rw [Option.map_some, resolve_fixed (fun s i hs => hn p a u s i hr ha hu hs)]
    · exact g2 hr

/-- C62 for a value that is not an entity: the value with its links resolved is returned; that is the value itself, if the index knows no link in it. What happens to entities is as in C60. -/
theorem C62_value_partial {env : Env} (same : Mem → Nat → Nat → Bool) {scope : Option String} {fallback : Bool} {m : Mem} {v : V} {index : Dict (String × String) Nat}
    (hv : ∀ o, v ≠ .ref o) (ho : okV env m v) (hS : Substitutable env index m v)
    (ha : ∀ p, V.ref p ∈ v.subs → ∃ y, m[p]? = some y ∧ Linkable env.lower scope fallback y) (hf : ∀ p, V.ref p ∈ v.subs → Finds env index m scope fallback p)
    (k : Nat) (hk : m.length < k) :
    ∃ w m', linksInplace env same scope fallback m v = .ok (w, m) ∧ (∀ p, V.ref p ∉ w.subs) ∧ objectsInplace env same index k m w = .ok (resolve index v, m') ∧
      m'.map skel = m.map skel ∧ (∀ q a, a ∉ backNames → (Reached index m v q → attrAt m' q a = (attrAt m q a).map (resolve index)) ∧
        (¬ Reached index m v q → attrAt m' q a = attrAt m q a)) ∧ (Single index m → TwoWay m → TwoWay m') ∧
      ((∀ s i, V.link s i ∈ v.subs → Dict.get? index (s, i) = none) → resolve index v = v) := by
  have hab : ∀ p, V.ref p ∈ v.subs → Able env.lower scope fallback m .none p := fun p hp => .inr (ha p hp)
  obtain ⟨f, e, hl⟩ := C61_value_partial same hv hS.plain ho ha
  have hput : put f .link v = put (toward env.lower scope fallback m .none) .link v := by
    have h2 := subI_links (env := env) (scope := scope) (fallback := fallback) (m := m) (top := v) (expand := expandI env same (linkRepl env.lower scope fallback v) 1) v
      { visited := [], mem := m } hS.plain
      (okV_put env m m _ _ v ho (toward_compat (env := env) (fun p x hx => ⟨x, hx, rfl, fun _ h => h⟩) (fun p hp => .inr (ha p hp)))) (fun p hp => .inr (ha p hp))
      ⟨rfl, fun k w hk => by simp [Dict.get?] at hk, fun o e => absurd e (hv o)⟩
    obtain ⟨st, e2, _⟩ := h2
    unfold linksInplace substituteI at e
    rw [e2] at e
    simp only [Except.ok.injEq, Prod.mk.injEq] at e
    rw [← e.1]
    exact put_congr v (fun p hp => by simp [toward, Ne.symm (hv p)]) (fun _ _ _ => rfl)
  have hres : resolve index (put f .link v) = resolve index v := by rw [hput]; exact resolve_toward hf
  have hreach : ∀ q, Reached index m (put f .link v) q ↔ Reached index m v q := by
    intro q
    constructor
    · intro hq
      induction hq with
      | here h => exact .here (by rwa [hres] at h)
      | next _ hl ih => exact .next ih hl
    · intro hq
      induction hq with
      | here h => exact .here (by rwa [hres])
      | next _ hl ih => exact .next ih hl
  obtain ⟨m', e', hsk, hT, hat, htwo⟩ := C60_objects_inplace_partial env same index m (put f .link v)
    ⟨hS.typed, hS.typed', by rw [hput]; exact plain_toward hS.plain hab, by rw [hres]; exact hS.ok, fun q hq => hS.there q ((hreach q).1 hq),
      fun q a u hq => hS.plains q a u ((hreach q).1 hq), fun q hq => hS.acyclic q ((hreach q).1 hq)⟩ k hk
  refine ⟨_, m', e, fun p hp => ?_, by rw [e', hres], hsk, fun q a hb => ?_, htwo, resolve_fixed⟩
  · obtain ⟨p', hp', hp2⟩ | ⟨s, i, _, hp2⟩ := put_refs v hS.plain hp
    · obtain ⟨s, i, e, _⟩ := hl p' hp'
      rw [e] at hp2
      simp [V.subs] at hp2
    · simp [V.subs] at hp2
  · rw [← hreach q]
    exact hat q a hb

/-- with `make_index` of a collection in which ids are not used twice, the links put in place of its entities mean those entities -/
theorem finds_index {env : Env} {m : Mem} {coll : V} {index : Dict (String × String) Nat} {fallback : Bool} (hI : Indexes m coll index) (hd : UniqueIds m coll) {p : Nat}
    (hp : InCollection m coll p) (hu : ∃ u, HasId m p u) : Finds env index m .none fallback p := by
  have hT := hI.tellsApart (env := env) (fallback := fallback) hd (v := .ref p)
    ⟨fun q hq => by simp [V.subs] at hq; subst hq; exact ⟨hp, hu⟩, fun s i hs => by simp [V.subs] at hs⟩
  obtain ⟨y, hy, hl⟩ := hT.linkable p (by simp [V.subs])
  obtain ⟨s, i, e, _⟩ := linkOf_ok hy hl
  exact ⟨y, s, i, hy, e, hT.found p y s i (by simp [V.subs]) hy e⟩

/-- the hypotheses of C62 are met, by the ingredients of C61 -/
example : ∃ m index, LinkReady plainEnv (pyEq 99 3) none true m 3 ∧ Substitutable plainEnv index m (.ref 3) ∧ Single index m ∧
    (∀ a u p, a ∉ backNames → attrAt m 3 a = some u → V.ref p ∈ u.subs → Finds plainEnv index m none true p) ∧
    (∀ q a u s i, Reached index m (.ref 3) q → a ∉ backNames → attrAt m q a = some u → V.link s i ∈ u.subs → Dict.get? index (s, i) = none) ∧
    Reached index m (.ref 3) 0 ∧ Reached index m (.ref 3) 1 := by
  obtain ⟨m, _, hm, hb, hR, _⟩ := shared_ready
  have h : (match callAll plainEnv [] sharedCalls with
    | .ok m => let index := [(("id", "p"), 0), (("id", "s"), 1), (("id", "i"), 2), (("id", "j"), 3)]
      decide (resolveMem index m = m ∧ smallOk index m = true ∧ m.length = 4 ∧
        attrAt m 3 "_process" = some (.ref 0) ∧ attrAt m 3 "_spec" = some (.ref 1)) &&
      (List.range 4).all (fun a => (clsAt m a).toList.all (fun c => (backRef c).toList.all (fun e => decide (e.2 ≠ "_output_material")))) &&
      m.all (fun x => x.fields.all (fun f => f.2.subs.all (fun w => match w with | .link _ _ => false | .ref p => decide (p < 4) | _ => true))) &&
      (List.range 4).all (fun p => match m[p]? with
        | some y => (match toLink plainEnv.lower none true y with | .ok (.link s i) => decide (Dict.get? index (s, i) = some p) | _ => false)
        | none => false)
    | .error _ => false) = true := by decide +kernel
  simp only [hm, Bool.and_eq_true] at h
  obtain ⟨⟨⟨h1, h2⟩, h3⟩, h4⟩ := h
  obtain ⟨e1, e2, hlen, e4, e5⟩ := of_decide_eq_true h1
  have hsub : ∀ q a u w, attrAt m q a = some u → w ∈ u.subs → (match w with | .link _ _ => false | .ref p => decide (p < 4) | _ => true) = true := by
    intro q a u w hu hw
    unfold attrAt at hu
    split at hu
    · rename_i x hx
      exact List.all_eq_true.1 (List.all_eq_true.1 (List.all_eq_true.1 h3 x (List.mem_of_getElem? hx)) _ (Dict.mem_of_get? hu)) w hw
    · cases hu
  have hr3 : Reached [(("id", "p"), 0), (("id", "s"), 1), (("id", "i"), 2), (("id", "j"), 3)] m (.ref 3) 3 := .here (by simp [resolve, put, V.subs])
  refine ⟨m, [(("id", "p"), 0), (("id", "s"), 1), (("id", "i"), 2), (("id", "j"), 3)], hR, ?_, ?_, ?_, ?_, ?_, ?_⟩
  · refine small_substitutable hR.typed (by rw [e1]; exact hR.typed) (by simp [Plain]) (by simp [resolve, put, okV]) (fun o ho => ?_) e2
    simp [resolve, put, V.subs] at ho
    omega
  · intro a c b hp
    rw [e1] at hp
    obtain ⟨c, there, g1, g2, g3⟩ := points_attr.1 hp
    have hlt := points_lt hp
    have := of_decide_eq_true (List.all_eq_true.1 (List.all_eq_true.1 (List.all_eq_true.1 h2 a (List.mem_range.2 (by omega))) c (by simp [g1]))
      (there, "_output_material") (by simp [g2]))
    exact absurd rfl this
  · intro a u p ha hu hp
    have hlt : p < 4 := by simpa using hsub 3 a u _ hu hp
    have := List.all_eq_true.1 h4 p (List.mem_range.2 hlt)
    split at this
    · rename_i y hy
      split at this
      · rename_i s i hl
        exact ⟨y, s, i, hy, hl, of_decide_eq_true this⟩
      · cases this
    · cases this
  · intro q a u s i _ _ hu hs
    have := hsub q a u _ hu hs
    simp at this
  · exact .next hr3 ⟨"_process", .ref 0, by decide, e4, by simp [resolve, put, V.subs]⟩
  · exact .next hr3 ⟨"_spec", .ref 1, by decide, e5, by simp [resolve, put, V.subs]⟩

end Verif.Inplace
