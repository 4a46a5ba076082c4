import Verif.Props.EqualCong
import Verif.Props.EqualEx
import Verif.Props.BackLinks
import Verif.Props.ReadCopy
/-!
# C58: a copy is equal to the original
-/
set_option linter.unusedSimpArgs false
set_option linter.unusedSectionVars false
set_option linter.unusedVariables false

namespace Verif.Substitute
open Verif.Py Verif.Value Verif.Schema Verif.Json Verif.Equal

/-! ## Values -/

mutual
theorem wf_sub (v : V) (h : Json.wf v) (w : V) (hw : w ∈ v.subs) : Json.wf w := by
  cases v with
  | list l =>
    simp only [V.subs, List.mem_cons] at hw
    rcases hw with rfl | hw
    · exact h
    · simp only [Json.wf] at h; exact wfs_sub l h w hw
  | tuple l =>
    simp only [V.subs, List.mem_cons] at hw
    rcases hw with rfl | hw
    · exact h
    · simp only [Json.wf] at h; exact wfs_sub l h w hw
  | dict ks vs =>
    simp only [V.subs, List.mem_cons, List.mem_append] at hw
    rcases hw with rfl | hw | hw
    · exact h
    · simp only [Json.wf, wfDict] at h
      obtain ⟨⟨_, names, hs, _⟩, _⟩ := h
      rw [mem_subss] at hw
      obtain ⟨u, hu, hw⟩ := hw
      rw [strings_eq hs] at hu
      obtain ⟨s, _, rfl⟩ := List.mem_map.1 hu
      simp [V.subs] at hw
      subst hw
      simp [Json.wf]
    · simp only [Json.wf] at h; exact wfs_sub vs h.2 w hw
  | obj t ns vs =>
    simp only [V.subs, List.mem_cons] at hw
    rcases hw with rfl | hw
    · exact h
    · simp only [Json.wf] at h; exact wfs_sub vs h.2 w hw
  | link s i => simp [V.subs] at hw; rcases hw with rfl | rfl | rfl <;> simp [Json.wf]
  | _ => simp [V.subs] at hw; subst hw; simp [Json.wf]
termination_by structural v
theorem wfs_sub (l : List V) (h : wfs l) (w : V) (hw : w ∈ subss l) : Json.wf w := by
  cases l with
  | nil => simp [subss] at hw
  | cons v vs =>
    simp only [subss, List.mem_append] at hw
    simp only [wfs] at h
    rcases hw with hw | hw
    · exact wf_sub v h.1 w hw
    · exact wfs_sub vs h.2 w hw
termination_by structural l
end

mutual
theorem okV_sub {env : Env} {m : Mem} (v : V) (h : okV env m v) (hv : Json.wf v) (w : V) (hw : w ∈ v.subs) : okV env m w := by
  cases v with
  | list l =>
    simp only [V.subs, List.mem_cons] at hw
    rcases hw with rfl | hw
    · exact h
    · simp only [okV, Json.wf] at h hv; exact okVs_sub l h hv w hw
  | tuple l =>
    simp only [V.subs, List.mem_cons] at hw
    rcases hw with rfl | hw
    · exact h
    · simp only [okV, Json.wf] at h hv; exact okVs_sub l h hv w hw
  | dict ks vs =>
    simp only [V.subs, List.mem_cons, List.mem_append] at hw
    rcases hw with rfl | hw | hw
    · exact h
    · simp only [Json.wf, wfDict] at hv
      obtain ⟨⟨_, names, hs, _⟩, _⟩ := hv
      rw [mem_subss] at hw
      obtain ⟨u, hu, hw⟩ := hw
      rw [strings_eq hs] at hu
      obtain ⟨s, _, rfl⟩ := List.mem_map.1 hu
      simp [V.subs] at hw
      subst hw
      simp [okV]
    · simp only [okV, Json.wf] at h hv; exact okVs_sub vs h hv.2 w hw
  | obj t ns vs =>
    simp only [V.subs, List.mem_cons] at hw
    rcases hw with rfl | hw
    · exact h
    · simp only [okV, Json.wf] at h hv; exact okVs_sub vs h.2 hv.2 w hw
  | link s i => simp [V.subs] at hw; rcases hw with rfl | rfl | rfl <;> simp [okV]
  | _ => simp [V.subs] at hw; subst hw; simp [okV]
termination_by structural v
theorem okVs_sub {env : Env} {m : Mem} (l : List V) (h : okVs env m l) (hl : wfs l) (w : V) (hw : w ∈ subss l) : okV env m w := by
  cases l with
  | nil => simp [subss] at hw
  | cons v vs =>
    simp only [subss, List.mem_append] at hw
    simp only [okVs, wfs] at h hl
    rcases hw with hw | hw
    · exact okV_sub v h.1 hl.1 w hw
    · exact okVs_sub vs h.2 hl.2 w hw
termination_by structural l
end

theorem table_names : ∀ e ∈ table, e.2.names.Nodup := by decide +kernel

theorem wf_shape {env : Env} {m : Mem} {v : V} (hv : Json.wf v) (ho : okV env m v) : ShapeOk v := by
  intro w hw
  have hv' := wf_sub v hv w hw
  have ho' := okV_sub v ho hv w hw
  constructor
  · rintro ks vs rfl
    simp only [Json.wf, wfDict] at hv'
    obtain ⟨⟨hl, names, hs, hn, _⟩, _⟩ := hv'
    refine ⟨?_, hl⟩
    rw [strings_eq hs]
    rw [List.Nodup, List.pairwise_map]
    exact hn.imp (fun hab e => hab (by injection e))
  · rintro t ns vs rfl
    simp only [Json.wf, okV, Stable] at hv' ho'
    obtain ⟨⟨c, hc, rfl, _⟩, _⟩ := ho'
    exact ⟨table_names (t, c) (Dict.mem_of_get? hc), hv'.1⟩

/-- the relation between the originals and the copies -/
def CopyRel (φ : Nat → Nat) (S : Nat → Prop) (a b : Nat) : Prop := S a ∧ b = φ a

mutual
theorem alike_mapped {φ : Nat → Nat} {S : Nat → Prop} (v w : V) (hv : Json.wf v) (hS : ∀ o, V.ref o ∈ v.subs → S o)
    (h : alike (fun o u => u = .ref (φ o)) SameLink v w) : Mapped (CopyRel φ S) v w := by
  cases v with
  | none => simp only [alike] at h; subst h; exact .none
  | str s => simp only [alike] at h; subst h; exact .str s
  | bool b => simp only [alike] at h; exact .num rfl h
  | int b => simp only [alike] at h; exact .num rfl h
  | float b => simp only [alike] at h; exact .num rfl h
  | link s i => simp only [alike, SameLink] at h; subst h; exact .link s i
  | ref o => simp only [alike] at h; subst h; exact .ref ⟨hS o (self_mem_subs _), rfl⟩
  | list l =>
    simp only [alike] at h
    obtain ⟨l', rfl, h⟩ := h
    simp only [Json.wf] at hv
    exact .list (alikes_mapped l l' hv (fun o ho => hS o (by simp [V.subs, ho])) h)
  | tuple l =>
    simp only [alike] at h
    obtain ⟨l', rfl, h⟩ := h
    simp only [Json.wf] at hv
    exact .tuple (alikes_mapped l l' hv (fun o ho => hS o (by simp [V.subs, ho])) h)
  | obj t ns vs =>
    simp only [alike] at h
    obtain ⟨l', rfl, h⟩ := h
    simp only [Json.wf] at hv
    exact .obj t ns (alikes_mapped vs l' hv.2 (fun o ho => hS o (by simp [V.subs, ho])) h)
  | dict ks vs =>
    simp only [alike] at h
    obtain ⟨ks', vs', ps, rfl, hl, hp, hk, h⟩ := h
    simp only [Json.wf, wfDict] at hv
    exact .dict hv.1.1 hl (alikes_mappedD ks vs ps hv.1.1 hv.2 (fun o ho => hS o (by simp [V.subs, ho])) hk h) hp
termination_by structural v
theorem alikes_mapped {φ : Nat → Nat} {S : Nat → Prop} (l l' : List V) (hv : wfs l) (hS : ∀ o, V.ref o ∈ subss l → S o)
    (h : alikes (fun o u => u = .ref (φ o)) SameLink l l') : MappedL (CopyRel φ S) l l' := by
  cases l with
  | nil => simp only [alikes] at h; subst h; exact .nil
  | cons v vs =>
    simp only [alikes] at h
    obtain ⟨w, ws, rfl, h1, h2⟩ := h
    simp only [wfs] at hv
    exact .cons (alike_mapped v w hv.1 (fun o ho => hS o (by simp [subss, ho])) h1) (alikes_mapped vs ws hv.2 (fun o ho => hS o (by simp [subss, ho])) h2)
termination_by structural l
theorem alikes_mappedD {φ : Nat → Nat} {S : Nat → Prop} (ks l : List V) (ps : List (V × V)) (hl : ks.length = l.length) (hv : wfs l) (hS : ∀ o, V.ref o ∈ subss l → S o)
    (hk : ps.map Prod.fst = ks) (h : alikes (fun o u => u = .ref (φ o)) SameLink l (ps.map Prod.snd)) : MappedD (CopyRel φ S) (ks.zip l) ps := by
  cases l with
  | nil =>
    simp only [alikes] at h
    cases ps with
    | nil => simpa using MappedD.nil
    | cons p ps => simp at h
  | cons v vs =>
    simp only [alikes] at h
    obtain ⟨w, ws, e, h1, h2⟩ := h
    cases ps with
    | nil => simp at e
    | cons p ps =>
      obtain ⟨k, w'⟩ := p
      simp only [List.map_cons, List.cons.injEq] at e
      obtain ⟨rfl, rfl⟩ := e
      subst hk
      simp only [wfs] at hv
      simp only [List.map_cons, List.zip_cons_cons]
      exact .cons (alike_mapped v _ hv.1 (fun o ho => hS o (by simp [subss, ho])) h1)
        (alikes_mappedD _ vs ps (by simpa using hl) hv.2 (fun o ho => hS o (by simp [subss, ho])) rfl h2)
termination_by structural l
end

theorem mappedL_str {R : Nat → Nat → Prop} : ∀ (names : List String), MappedL R (names.map .str) (names.map .str)
  | [] => .nil
  | s :: ss => .cons (.str s) (mappedL_str ss)

theorem alike_copy {φ : Nat → Nat} {S : Nat → Prop} {v w : V} (hv : Json.wf v) (ht : noTuple v) (hS : ∀ o, V.ref o ∈ v.subs → S o)
    (h : alike (fun o u => u = .ref (φ o)) SameLink v w) : VCopy (CopyRel φ S) v w := by
  have hm := alike_mapped v w hv hS h
  cases v with
  | ref o => simp only [alike] at h; subst h; exact .ref ⟨hS o (self_mem_subs _), rfl⟩
  | tuple l => simp [noTuple] at ht
  | list l =>
    simp only [alike] at h
    obtain ⟨l', rfl, h⟩ := h
    simp only [Json.wf] at hv
    exact .list rfl rfl (alikes_mapped l l' hv (fun o ho => hS o (by simp [V.subs, ho])) h) (.refl _)
  | dict ks vs =>
    simp only [alike] at h
    obtain ⟨ks', vs', ps, rfl, hl, hp, hk, h⟩ := h
    simp only [Json.wf, wfDict] at hv
    obtain ⟨⟨_, names, hs, _⟩, _⟩ := hv
    refine .list rfl rfl (l'' := ks) ?_ ?_
    · rw [strings_eq hs]; exact mappedL_str _
    · have := hp.map Prod.fst
      rw [hk] at this
      rwa [List.map_fst_zip (by omega)] at this
  | none => simp only [alike] at h; subst h; exact .plain rfl rfl hm
  | str s => simp only [alike] at h; subst h; exact .plain rfl rfl hm
  | link s i => simp only [alike, SameLink] at h; subst h; exact .plain rfl rfl hm
  | obj t ns vs => simp only [alike] at h; obtain ⟨l', rfl, h⟩ := h; exact .plain rfl rfl hm
  | bool b => simp only [alike] at h; exact .plain rfl (by cases w <;> simp [Schema.num] at h <;> rfl) hm
  | int b => simp only [alike] at h; exact .plain rfl (by cases w <;> simp [Schema.num] at h <;> rfl) hm
  | float b => simp only [alike] at h; exact .plain rfl (by cases w <;> simp [Schema.num] at h <;> rfl) hm

/-! ## What attributes hold -/

/-- an entity, or a value in which all entities are attribute templates, and which is not a list of entities -/
def Good (m : Mem) (v : V) : Prop := (∃ p, v = .ref p) ∨
  ((∀ p, V.ref p ∈ v.subs → isCls m attributeTemplates (.ref p) = true) ∧ ∀ l, iter v = some l → ∀ q, V.ref q ∉ l)

theorem Good.plain {m : Mem} {v : V} (h : ∀ p, V.ref p ∉ v.subs) : Good m v :=
  .inr ⟨fun p hp => absurd hp (h p), fun l hl q hq => h q (mem_subs_of_iter hl hq (self_mem_subs _))⟩

theorem arg_good {env : Env} {m : Mem} {c : ECls} {a : EArg} (ha : a ∈ eargs c) {v : V} (hok : okV env m v) (hw : Json.wf v) (hcv : conv env m a.kind v = .ok v)
    (hf : FreePlain [(a.name, v)]) (hi : FreeInside v) : Good m v := by
  by_cases hno : ∃ p, V.ref p ∈ v.subs
  case neg => exact .plain (fun p hp => hno ⟨p, hp⟩)
  obtain ⟨p, hp⟩ := hno
  have hfree : ¬ (a.kind = .raw ∨ a.kind = .probabilities ∨ a.kind = .quantities) := fun hk => hf _ List.mem_cons_self (eargs_free c a ha hk) p hp
  have key := fun {p} hp => conv_refs (eargs_kinds c a ha).1 (p := p) hcv hp
  by_cases htg : ∃ cs, a.kind = .target cs
  · obtain ⟨cs, hk⟩ := htg
    left
    rw [hk] at hcv
    simp only [conv, convTarget] at hcv
    split at hcv
    · rename_i hc
      rcases hc with rfl | hc | hc
      · simp [V.subs] at hp
      · cases v <;> simp [isLink] at hc
        simp [V.subs] at hp
      · cases v <;> simp [isCls] at hc
        exact ⟨_, rfl⟩
    · cases hcv
  · right
    constructor
    · intro q hq
      rcases key hq with h | ⟨cs, hk, _⟩ | ⟨ts, t, ns, vs, hk, ht, hv, hp'⟩ | ⟨c', hk, h | ⟨l, b, t, ns, vs, rfl, hm, ht, hp'⟩⟩
      · exact absurd h hfree
      · exact absurd ⟨cs, hk⟩ htg
      · have hsub : V.obj t ns vs ∈ v.subs := by
          rcases hv with rfl | ⟨l, rfl, hm⟩
          · exact self_mem_subs _
          · simp only [V.subs, List.mem_cons]; exact .inr (mem_subss.mpr ⟨_, hm, self_mem_subs _⟩)
        exact obj_refs (okV_sub v hok hw _ hsub) (hi.sub hsub) q hp'
      · exact h
      · have hsub : V.obj t ns vs ∈ (V.list l).subs := by
          simp only [V.subs, List.mem_cons]
          exact .inr (mem_subss.mpr ⟨_, hm, by simp [V.subs, subss]⟩)
        exact obj_refs (okV_sub _ hok hw _ hsub) (hi.sub hsub) q hp'
    · intro l hl q hq
      rcases key (mem_subs_of_iter hl hq (self_mem_subs _)) with h | ⟨cs, hk, _⟩ | ⟨ts, t, ns, vs, hk, ht, hv, hp'⟩ | ⟨c', hk, h⟩
      · exact absurd h hfree
      · exact absurd ⟨cs, hk⟩ htg
      · rcases hv with rfl | ⟨l', rfl, hm⟩
        · simp [iter] at hl
        · simp only [iter, Option.some.injEq] at hl
          subst hl
          rcases hk with ⟨e, hk⟩ | hk | hk <;> rw [hk] at hcv
          · simp [conv, convObj, isTyp] at hcv
          · simp [conv, convOptObj, isTyp] at hcv
          · simp only [conv, convList] at hcv
            split at hcv
            · rename_i hall
              have := List.all_eq_true.1 hall (V.ref q) hq
              simp [isTyp] at this
            · cases hcv
      · rw [hk] at hcv
        obtain ⟨l', rfl, hl'⟩ := convRanges_out env m c' (by have := (eargs_kinds c a ha).1; rw [hk] at this; exact this) v v hcv
        simp only [iter, Option.some.injEq] at hl
        subst hl
        obtain ⟨_, _, e, _⟩ := hl' _ hq
        cases e

/-- the attributes of an entity -/
def bodyD (m : Mem) (x : EObj) : List (String × V) :=
  (x.fields.filter (fun f => decide (f.1 ∉ skip x.cls))).map (fun f => (lstrip f.1, getattr m x f))

theorem schema_asDict (m : Mem) (x : EObj) : Schema.asDict m x = ("type", .str (typ x.cls)) :: ("uids", uidsDict x.uids) :: bodyD m x := rfl
theorem equal_asDict (m : Mem) (x : EObj) : Equal.asDict m x = bodyD m x ++ [("type", .str (typ x.cls))] := rfl

theorem body_good {env : Env} {m : Mem} (hT : WellTyped env m) {o : Nat} {x : EObj} (hx : m[o]? = some x) (hw : ∀ e ∈ Schema.asDict m x, Json.wf e.2)
    (hf : FreePlain (Schema.asDict m x)) (hi : ∀ f ∈ Schema.asDict m x, FreeInside f.2) {e : String × V} (he : e ∈ bodyD m x) : Good m e.2 := by
  obtain ⟨vals, own, hs, hown⟩ := hT o x hx
  have hd := asDict_eq hs m
  have hfm : e ∈ Schema.asDict m x := by rw [schema_asDict]; simp [he]
  rw [schema_asDict] at hd
  injection hd with _ hd
  injection hd with _ hd
  rw [hd, List.mem_append] at he
  rcases he with h | h
  · rw [List.zip_map_left] at h
    obtain ⟨e', he', rfl⟩ := List.mem_map.1 h
    have hm := List.of_mem_zip (a := e'.1) (b := e'.2) he'
    exact arg_good hm.1 (hs.ok _ hm.2) (hw _ hfm) (hs.conv e' he') (by intro g hg; simp at hg; subst hg; exact hf _ hfm) (hi _ hfm)
  · by_cases hc : x.cls = .ingredientRun
    · obtain ⟨name, labels, e', h1, h2⟩ := ingredientPart_eq hT hs hc (hown hc)
      rw [e'] at h
      simp only [List.mem_cons, List.not_mem_nil, or_false] at h
      refine .plain (fun p hp => ?_)
      rcases h with rfl | rfl
      · rcases h1 with h1 | h1
        · simp [h1, V.subs] at hp
        · exact absurd hp (scalar_subs (isStr_scalar h1) p)
      · rcases h2 with h2 | ⟨l, h2, hl⟩
        · simp [h2, V.subs] at hp
        · rw [h2] at hp
          simp only [V.subs, List.mem_cons, reduceCtorEq, false_or, mem_subss] at hp
          obtain ⟨w, hw, hp⟩ := hp
          exact absurd hp (scalar_subs (isStr_scalar (hl w hw)) p)
    · unfold ingredientPart at h
      rw [if_neg hc] at h
      simp at h

theorem names_eargs (c : ECls) : ((eargs c).map EArg.name ++ (if c = .ingredientRun then ["name", "labels"] else []) ++ ["type", "measurements", "ingredients"]).Nodup := by
  cases c <;> decide +kernel

theorem body_keys {env : Env} {m : Mem} (hT : WellTyped env m) {o : Nat} {x : EObj} (hx : m[o]? = some x) :
    (bodyD m x).map Prod.fst = (eargs x.cls).map EArg.name ++ (if x.cls = .ingredientRun then ["name", "labels"] else []) := by
  obtain ⟨vals, own, hs, hown⟩ := hT o x hx
  have hd := asDict_eq hs m
  rw [schema_asDict] at hd
  injection hd with _ hd
  injection hd with _ hd
  rw [hd, List.map_append, List.map_fst_zip (by have := hs.len; simp; omega)]
  congr 1
  unfold ingredientPart
  split
  · rename_i hc
    obtain ⟨nm, lb, rfl, _⟩ := hown hc
    simp only [List.map_cons, List.map_nil]
    decide +kernel
  · rfl

/-- the back references that are compared -/
def backD (x : EObj) : List (String × V) := match x.cls with
    | .materialRun => [("measurements", (Dict.get? x.fields "_measurements").getD .none)]
    | .processRun => [("ingredients", (Dict.get? x.fields "_ingredients").getD .none)]
    | .processSpec => [("ingredients", (Dict.get? x.fields "_ingredients").getD .none)]
    | _ => []

theorem compare_eq (m : Mem) (x : EObj) : dictForCompare m x = bodyD m x ++ [("type", .str (typ x.cls))] ++ backD x := rfl

theorem compare_wf {env : Env} {m : Mem} (hT : WellTyped env m) {o : Nat} {x : EObj} (hx : m[o]? = some x) : Dict.WF (dictForCompare m x) := by
  unfold Dict.WF Dict.keys
  rw [compare_eq, List.map_append, List.map_append, body_keys hT hx]
  have h := names_eargs x.cls
  refine h.sublist ?_
  rw [List.append_assoc _ (List.map _ _)]
  refine (List.Sublist.refl _).append ?_
  unfold backD
  cases x.cls <;> simp <;> decide

theorem uids_wf {env : Env} {m : Mem} (hT : WellTyped env m) {o : Nat} {x : EObj} (hx : m[o]? = some x) : Dict.WF x.uids := by
  obtain ⟨vals, own, hs, _⟩ := hT o x hx
  have h := (clash_iff _ _).1 hs.uids
  rw [List.Nodup, List.pairwise_map] at h
  exact h.imp (fun hab e => hab (by rw [e]))

/-! ## Originals and copies -/

theorem alikes_entries {L : Nat → V → Prop} {G : String → String → V → Prop} : ∀ (A B : List (String × V)), A.map Prod.fst = B.map Prod.fst →
    alikes L G (A.map Prod.snd) (B.map Prod.snd) →
    (∀ e ∈ A, ∃ w, (e.1, w) ∈ B ∧ alike L G e.2 w) ∧ ∀ e ∈ B, ∃ v, (e.1, v) ∈ A ∧ alike L G v e.2
  | [], B, hk, h => by cases B <;> simp at hk; simp
  | a :: A, B, hk, h => by
    cases B with
    | nil => simp at hk
    | cons b B =>
      simp only [List.map_cons, List.cons.injEq] at hk
      simp only [List.map_cons, alikes, List.cons.injEq] at h
      obtain ⟨w, ws, ⟨rfl, rfl⟩, h1, h2⟩ := h
      obtain ⟨i1, i2⟩ := alikes_entries A B hk.2 h2
      constructor
      · intro e he
        rcases List.mem_cons.1 he with rfl | he
        · exact ⟨b.2, by rw [hk.1]; exact List.mem_cons_self, h1⟩
        · obtain ⟨w, hw, ha⟩ := i1 e he
          exact ⟨w, List.mem_cons_of_mem _ hw, ha⟩
      · intro e he
        rcases List.mem_cons.1 he with rfl | he
        · exact ⟨a.2, by rw [← hk.1]; exact List.mem_cons_self, h1⟩
        · obtain ⟨w, hw, ha⟩ := i2 e he
          exact ⟨w, List.mem_cons_of_mem _ hw, ha⟩

/-- The value of an attribute of an original and of its copy. -/
inductive Pair (m : Mem) (φ : Nat → Nat) (S : Nat → Prop) (c : ECls) (k : String) (v w : V) : Prop where
  | forward (ha : alike (fun o u => u = .ref (φ o)) SameLink v w) (hv : Json.wf v) (tv : noTuple v) (sv : ShapeOk v) (sw : ShapeOk w) (hg : Good m v)
      (hS : ∀ o, V.ref o ∈ v.subs → S o) (hk : entityKeys k = false) (hc : c ∈ attributeTemplates → ∀ o, V.ref o ∉ v.subs)
  | back (as bs : List Nat) (hv : v = .list (as.map .ref)) (hw : w = .list (bs.map .ref)) (hp : bs.Perm (as.map φ)) (hS : ∀ o ∈ as, S o)
      (hk : entityKeys k = true) (hc : c ∉ attributeTemplates)

theorem Good.grows {m l : Mem} {v : V} (h : Good m v) : Good (m ++ l) v := by
  rcases h with h | ⟨h1, h2⟩
  · exact .inl h
  · refine .inr ⟨fun p hp => ?_, h2⟩
    obtain ⟨y, hy, hc⟩ := isCls_ref (h1 p hp)
    have hlt : p < m.length := by
      rw [← List.getElem?_eq_some_iff.1 hy |>.2] at hy
      exact (List.getElem?_eq_some_iff.1 hy).1
    simp only [isCls, List.getElem?_append_left hlt, hy, decide_eq_true_eq]
    exact hc

theorem map_ref_inj : ∀ {as bs : List Nat}, as.map V.ref = bs.map V.ref → as = bs
  | [], [], _ => rfl
  | [], _ :: _, h => by simp at h
  | _ :: _, [], h => by simp at h
  | a :: as, b :: bs, h => by
    simp only [List.map_cons, List.cons.injEq, V.ref.injEq] at h
    rw [h.1, map_ref_inj h.2]

theorem keys_plain (c : ECls) : ∀ k ∈ (eargs c).map EArg.name ++ (if c = .ingredientRun then ["name", "labels"] else []), entityKeys k = false := by
  cases c <;> decide +kernel

section
variable {env : Env} {m1 l : Mem} {obj w : V} {φ : Nat → Nat}

/-- all about an original and its copy -/
structure Node (env : Env) (m1 m' : Mem) (obj : V) (φ : Nat → Nat) (o : Nat) (x z : EObj) : Prop where
  old : m1[o]? = some x
  orig : m'[o]? = some x
  copy : m'[φ o]? = some z
  cls : z.cls = x.cls
  uids : z.uids.Perm x.uids
  uidsWF : Dict.WF x.uids
  uidsWF' : Dict.WF z.uids
  wf : Dict.WF (dictForCompare m' x)
  wf' : Dict.WF (dictForCompare m' z)
  there : ∀ e ∈ dictForCompare m' x, ∃ w, (e.1, w) ∈ dictForCompare m' z ∧ Pair m' φ (fun a => Reachable m1 false obj (.ref a)) x.cls e.1 e.2 w
  fore : ∀ e ∈ dictForCompare m' z, ∃ v, (e.1, v) ∈ dictForCompare m' x ∧ Pair m' φ (fun a => Reachable m1 false obj (.ref a)) x.cls e.1 v e.2

theorem node (hW : Writable env m1 obj) (hT : WellTyped env (m1 ++ l)) (hI : Iso m1 obj (m1 ++ l) w φ)
    (hp : ∀ o z, Reachable m1 false obj (.ref o) → (m1 ++ l)[φ o]? = some z → ∀ e ∈ Schema.asDict (m1 ++ l) z, Json.wf e.2 ∧ noTuple e.2)
    {o : Nat} (ho : Reachable m1 false obj (.ref o)) : ∃ x z, Node env m1 (m1 ++ l) obj φ o x z := by
  have hlt := hW.there o ho
  have hx := List.getElem?_eq_getElem hlt
  generalize m1[o] = x at hx
  obtain ⟨z, hz, hzc, hzu, hk, ha, hb⟩ := hI.node o x hx ho
  have hx' : (m1 ++ l)[o]? = some x := by rw [List.getElem?_append_left hlt]; exact hx
  obtain ⟨vals, own, hs, _⟩ := hW.graph.typed o x hx
  have hsame := asDict_append hs l
  have hbody : bodyD (m1 ++ l) x = bodyD m1 x := by
    rw [schema_asDict, schema_asDict] at hsame
    injection hsame with _ h
    injection h
  have hpl := hW.graph.plain o x hx ho
  have hplz := hp o z ho hz
  have hfree := hW.graph.free o x hx ho
  have hent : (∀ e ∈ bodyD (m1 ++ l) x, ∃ w, (e.1, w) ∈ bodyD (m1 ++ l) z ∧ alike (fun o u => u = .ref (φ o)) SameLink e.2 w) ∧
      ∀ e ∈ bodyD (m1 ++ l) z, ∃ v, (e.1, v) ∈ bodyD (m1 ++ l) x ∧ alike (fun o u => u = .ref (φ o)) SameLink v e.2 := by
    rw [hbody]
    apply alikes_entries
    · rw [schema_asDict, schema_asDict] at hk
      simpa using hk.symm
    · rw [schema_asDict, schema_asDict] at ha
      simp only [List.map_cons, alikes, List.cons.injEq] at ha
      obtain ⟨_, _, ⟨_, rfl⟩, _, _, _, ⟨_, rfl⟩, _, h⟩ := ha
      exact h
  have memx : ∀ {e}, e ∈ bodyD (m1 ++ l) x → e ∈ Schema.asDict m1 x := fun he => by rw [hbody] at he; rw [schema_asDict]; simp [he]
  have memz : ∀ {e}, e ∈ bodyD (m1 ++ l) z → e ∈ Schema.asDict (m1 ++ l) z := fun he => by rw [schema_asDict]; simp [he]
  have fwd : ∀ k v w, (k, v) ∈ bodyD (m1 ++ l) x → (k, w) ∈ bodyD (m1 ++ l) z → alike (fun o u => u = .ref (φ o)) SameLink v w →
      Pair (m1 ++ l) φ (fun a => Reachable m1 false obj (.ref a)) x.cls k v w := by
    intro k v w hv hw haw
    have hwf := hpl _ (memx hv)
    refine .forward haw hwf.1 hwf.2 (wf_shape hwf.1 (asDict_ok hW.graph.typed hx _ (memx hv)))
      (wf_shape (hplz _ (memz hw)).1 (asDict_ok hT hz _ (memz hw))) ?_ ?_ ?_ ?_
    · rw [hbody] at hv
      exact (body_good hW.graph.typed hx (fun e he => (hpl e he).1) hfree.1 hfree.2 hv).grows
    · intro p hp
      exact reach_asDict (uni := false) hW.graph.typed hx ho (memx hv) hwf.1 hp
    · have := body_keys hT hx'
      exact keys_plain x.cls k (by rw [← this]; exact List.mem_map_of_mem (f := Prod.fst) hv)
    · intro hc p hp
      obtain ⟨y, _, hlt⟩ := forward_refs hW.graph.typed hx hfree.1 hfree.2 (memx hv) hp
      rw [attributeTemplates_order _ hc] at hlt
      omega
  have hty : Pair (m1 ++ l) φ (fun a => Reachable m1 false obj (.ref a)) x.cls "type" (.str (typ x.cls)) (.str (typ z.cls)) := by
    refine .forward (by simp [alike, hzc]) (by simp [Json.wf]) (by simp [noTuple]) ?_ ?_ (.plain (by simp [V.subs])) (by simp [V.subs]) (by decide) (by simp [V.subs])
    all_goals
      intro w hw
      simp [V.subs] at hw
      subst hw
      simp
  have hback : ∀ n k, n ∈ backNames → n ≠ "_output_material" → entityKeys k = true → x.cls ∉ attributeTemplates → n ∈ (ownFields x.cls).map Prod.fst →
      Pair (m1 ++ l) φ (fun a => Reachable m1 false obj (.ref a)) x.cls k ((Dict.get? x.fields n).getD .none) ((Dict.get? z.fields n).getD .none) := by
    intro n k hn hno hk hc hmem
    have hin : n ∈ x.fields.map Prod.fst := by rw [hs.fields, List.map_append, hs.own]; exact List.mem_append_right _ hmem
    obtain ⟨v, hv⟩ := (get?_isSome _ _).1 hin
    have hN := hW.back o x hx ho n hn v hv
    have hB := hb n hn
    rw [hv] at hB ⊢
    cases hN with
    | none h => exact absurd h hno
    | one a h => exact absurd h hno
    | many as h1 h2 h3 h4 =>
      generalize hg : Dict.get? z.fields n = zv at hB ⊢
      generalize e0 : V.list (as.map .ref) = v0 at hB hv ⊢
      cases hB with
      | none => cases e0
      | one a => cases e0
      | many as' bs hp =>
        have : as = as' := map_ref_inj (by injection e0)
        subst this
        refine .back as bs rfl rfl hp (fun a ha => ?_) hk hc
        refine .step (.step ho (.field hx (Dict.mem_of_get? hv) (by simp))) (.list (List.mem_map_of_mem ha))
  have hbacks : (∀ e ∈ backD x, ∃ w, (e.1, w) ∈ backD z ∧ Pair (m1 ++ l) φ (fun a => Reachable m1 false obj (.ref a)) x.cls e.1 e.2 w) ∧
      ∀ e ∈ backD z, ∃ v, (e.1, v) ∈ backD x ∧ Pair (m1 ++ l) φ (fun a => Reachable m1 false obj (.ref a)) x.cls e.1 v e.2 := by
    have h1 := hback "_measurements" "measurements" (by decide) (by decide) (by decide)
    have h2 := hback "_ingredients" "ingredients" (by decide) (by decide) (by decide)
    unfold backD
    rw [hzc]
    generalize x.cls = c at h1 h2
    cases c <;> simp only [List.mem_singleton, List.not_mem_nil, forall_eq, false_implies, implies_true, and_self, Prod.mk.injEq, true_and, exists_eq_left]
    · exact h2 (by decide) (by decide)
    · exact h1 (by decide) (by decide)
    · exact h2 (by decide) (by decide)
  refine ⟨x, z, hx, hx', hz, hzc, hzu, uids_wf hT hx', uids_wf hT hz, compare_wf hT hx', compare_wf hT hz, ?_, ?_⟩
  · intro e he
    rw [compare_eq] at he ⊢
    simp only [List.mem_append, List.mem_singleton] at he ⊢
    rcases he with (he | rfl) | he
    · obtain ⟨w, hw, haw⟩ := hent.1 e he
      exact ⟨w, .inl (.inl hw), fwd _ _ _ he hw haw⟩
    · exact ⟨_, .inl (.inr rfl), hty⟩
    · obtain ⟨w, hw, haw⟩ := hbacks.1 e he
      exact ⟨w, .inr hw, haw⟩
  · intro e he
    rw [compare_eq] at he ⊢
    simp only [List.mem_append, List.mem_singleton] at he ⊢
    rcases he with (he | rfl) | he
    · obtain ⟨w, hw, haw⟩ := hent.2 e he
      exact ⟨w, .inl (.inl hw), fwd _ _ _ hw he haw⟩
    · exact ⟨_, .inl (.inr rfl), hty⟩
    · obtain ⟨w, hw, haw⟩ := hbacks.2 e he
      exact ⟨w, .inr hw, haw⟩
end

theorem alikes_from {L : Nat → V → Prop} {G : String → String → V → Prop} : ∀ (l l' : List V), alikes L G l l' → ∀ w ∈ l', ∃ v ∈ l, alike L G v w
  | [], l', h, w, hw => by simp only [alikes] at h; subst h; simp at hw
  | v :: vs, l', h, w, hw => by
    simp only [alikes] at h
    obtain ⟨u, us, rfl, h1, h2⟩ := h
    rcases List.mem_cons.1 hw with rfl | hw
    · exact ⟨v, List.mem_cons_self, h1⟩
    · obtain ⟨v', hv', ha⟩ := alikes_from vs us h2 w hw
      exact ⟨v', List.mem_cons_of_mem _ hv', ha⟩

theorem alike_to_ref {φ : Nat → Nat} {v : V} {q : Nat} (h : alike (fun o u => u = .ref (φ o)) SameLink v (.ref q)) : ∃ o, v = .ref o := by
  cases v <;> simp [alike, SameLink, Schema.num] at h ⊢

theorem alike_iter {φ : Nat → Nat} {v w : V} (hv : Json.wf v) (ht : noTuple v) (h : alike (fun o u => u = .ref (φ o)) SameLink v w) {l' : List V}
    (hl : iter w = some l') {q : Nat} (hq : V.ref q ∈ l') : ∃ l o, iter v = some l ∧ V.ref o ∈ l := by
  cases v with
  | tuple l => simp [noTuple] at ht
  | list l =>
    simp only [alike] at h
    obtain ⟨l2, rfl, h⟩ := h
    simp only [iter, Option.some.injEq] at hl
    subst hl
    obtain ⟨u, hu, ha⟩ := alikes_from _ _ h _ hq
    obtain ⟨o, rfl⟩ := alike_to_ref ha
    exact ⟨l, o, rfl, hu⟩
  | dict ks vs =>
    simp only [alike] at h
    obtain ⟨ks', vs', ps, rfl, hl', hp, hk, _⟩ := h
    simp only [iter, Option.some.injEq] at hl
    subst hl
    refine ⟨ks, q, rfl, ?_⟩
    have := hp.map Prod.fst
    rw [hk, List.map_fst_zip (by omega)] at this
    exact this.mem_iff.2 hq
  | ref o => simp only [alike] at h; subst h; simp [iter] at hl
  | none => simp only [alike] at h; subst h; simp [iter] at hl
  | str s => simp only [alike] at h; subst h; simp [iter] at hl
  | link s i => simp only [alike, SameLink] at h; subst h; simp [iter] at hl
  | obj t ns vs => simp only [alike] at h; obtain ⟨l', rfl, h⟩ := h; simp [iter] at hl
  | bool b => simp only [alike] at h; cases w <;> simp [Schema.num] at h <;> simp [iter] at hl
  | int b => simp only [alike] at h; cases w <;> simp [Schema.num] at h <;> simp [iter] at hl
  | float b => simp only [alike] at h; cases w <;> simp [Schema.num] at h <;> simp [iter] at hl

theorem rankIn_le (m : List EObj) (o : Nat) : rankIn m o ≤ 1 := by
  unfold rankIn
  split
  · split <;> omega
  · omega

theorem rankIn_template {m : List EObj} {o : Nat} {x : EObj} (hx : m[o]? = some x) : (x.cls ∈ attributeTemplates → rankIn m o = 0) ∧ (x.cls ∉ attributeTemplates → rankIn m o = 1) := by
  unfold rankIn attributeTemplates
  rw [hx]
  obtain ⟨c, _, _⟩ := x
  cases c <;> simp

/-- what the comparison needs to know of a value -/
structure Side (m : Mem) (S : Nat → Prop) (c : ECls) (k : String) (v : V) : Prop where
  shape : ShapeOk v
  pairs : Pairs v
  inside : ∀ p, V.ref p ∈ v.subs → S p
  kind : (entityKeys k = false ∧ ((∃ p, v = .ref p) ∨ (∀ p, V.ref p ∈ v.subs → rankIn m p = 0) ∧ ∀ l, iter v = some l → ∀ q, V.ref q ∉ l) ∧
      (c ∈ attributeTemplates → ∀ p, V.ref p ∉ v.subs)) ∨
    (entityKeys k = true ∧ (∃ as : List Nat, v = .list (as.map .ref)) ∧ c ∉ attributeTemplates)

theorem strings_noTuple {names : List String} {ks : List V} (hs : ks = names.map .str) (t : List V) : V.tuple t ∉ subss ks := by
  subst hs
  intro h
  obtain ⟨u, hu, h⟩ := mem_subss.1 h
  obtain ⟨s, _, rfl⟩ := List.mem_map.1 hu
  simp [V.subs] at h

mutual
theorem noTuple_subs (v : V) (hv : Json.wf v) (ht : noTuple v) (t : List V) : V.tuple t ∉ v.subs := by
  cases v with
  | list l =>
    simp only [V.subs, List.mem_cons, reduceCtorEq, false_or, Json.wf, noTuple] at hv ht ⊢
    exact noTuples_subss l hv ht t
  | tuple l => simp [noTuple] at ht
  | dict ks vs =>
    simp only [Json.wf, noTuple] at hv ht
    obtain ⟨⟨_, names, hs, _⟩, hv⟩ := hv
    simp only [V.subs, List.mem_cons, reduceCtorEq, false_or, List.mem_append, not_or]
    exact ⟨strings_noTuple (strings_eq hs) t, noTuples_subss vs hv ht t⟩
  | obj n ns vs =>
    simp only [V.subs, List.mem_cons, reduceCtorEq, false_or, Json.wf, noTuple] at hv ht ⊢
    exact noTuples_subss vs hv.2 ht t
  | _ => simp [V.subs]
termination_by structural v
theorem noTuples_subss (l : List V) (hv : wfs l) (ht : noTuples l) (t : List V) : V.tuple t ∉ subss l := by
  cases l with
  | nil => simp [subss]
  | cons v vs =>
    simp only [subss, List.mem_append, not_or, wfs, noTuples] at hv ht ⊢
    exact ⟨noTuple_subs v hv.1 ht.1 t, noTuples_subss vs hv.2 ht.2 t⟩
termination_by structural l
end

mutual
theorem alike_noTuple {φ : Nat → Nat} (v w : V) (hv : Json.wf v) (ht : noTuple v) (h : alike (fun o u => u = .ref (φ o)) SameLink v w) (t : List V) :
    V.tuple t ∉ w.subs := by
  cases v with
  | list l =>
    obtain ⟨l', rfl, h⟩ := h
    simp only [V.subs, List.mem_cons, reduceCtorEq, false_or, Json.wf, noTuple] at hv ht ⊢
    exact alikes_noTuple l l' hv ht h t
  | tuple l => simp [noTuple] at ht
  | dict ks vs =>
    obtain ⟨ks', vs', ps, rfl, hl, hp, h1, h⟩ := h
    simp only [Json.wf, noTuple] at hv ht
    obtain ⟨⟨_, names, hs, _⟩, hv⟩ := hv
    simp only [V.subs, List.mem_cons, reduceCtorEq, false_or, List.mem_append, not_or]
    have hk : ks.Perm ks' := by
      rw [← h1]
      have := hp.map Prod.fst
      rwa [List.map_fst_zip (by omega)] at this
    have hv' : (ps.map Prod.snd).Perm vs' := by
      have := hp.map Prod.snd
      rwa [List.map_snd_zip (by omega)] at this
    refine ⟨fun hm => strings_noTuple (strings_eq hs) t ?_, fun hm => alikes_noTuple vs _ hv ht h t ?_⟩
    · rw [mem_subss] at hm ⊢
      obtain ⟨u, hu, hm⟩ := hm
      exact ⟨u, hk.mem_iff.2 hu, hm⟩
    · rw [mem_subss] at hm ⊢
      obtain ⟨u, hu, hm⟩ := hm
      exact ⟨u, hv'.mem_iff.2 hu, hm⟩
  | obj n ns vs =>
    obtain ⟨l', rfl, h⟩ := h
    simp only [V.subs, List.mem_cons, reduceCtorEq, false_or, Json.wf, noTuple] at hv ht ⊢
    exact alikes_noTuple vs l' hv.2 ht h t
  | link a b => simp only [alike, SameLink] at h; subst h; simp [V.subs]
  | ref o => simp only [alike] at h; subst h; simp [V.subs]
  | none => simp only [alike] at h; subst h; simp [V.subs]
  | str t => simp only [alike] at h; subst h; simp [V.subs]
  | bool b => simp only [alike] at h; cases w <;> simp [Schema.num] at h <;> simp [V.subs]
  | int b => simp only [alike] at h; cases w <;> simp [Schema.num] at h <;> simp [V.subs]
  | float b => simp only [alike] at h; cases w <;> simp [Schema.num] at h <;> simp [V.subs]
termination_by structural v
theorem alikes_noTuple {φ : Nat → Nat} (l l' : List V) (hv : wfs l) (ht : noTuples l) (h : alikes (fun o u => u = .ref (φ o)) SameLink l l') (t : List V) :
    V.tuple t ∉ subss l' := by
  cases l with
  | nil => simp only [alikes] at h; subst h; simp [subss]
  | cons v vs =>
    obtain ⟨w, ws, rfl, h1, h2⟩ := h
    simp only [subss, List.mem_append, not_or, wfs, noTuples] at hv ht ⊢
    exact ⟨alike_noTuple v w hv.1 ht.1 h1 t, alikes_noTuple vs ws hv.2 ht.2 h2 t⟩
termination_by structural l
end

theorem pairs_of {v : V} (h : ∀ t, V.tuple t ∉ v.subs) : Pairs v := fun _ _ hm => absurd hm (h _)

theorem pairs_refs (as : List Nat) : Pairs (.list (as.map .ref)) := by
  refine pairs_of (fun t h => ?_)
  simp only [V.subs, List.mem_cons, reduceCtorEq, false_or, mem_subss] at h
  obtain ⟨u, hu, h⟩ := h
  obtain ⟨a, _, rfl⟩ := List.mem_map.1 hu
  simp [V.subs] at h

theorem shape_refs (as : List Nat) : ShapeOk (.list (as.map .ref)) := by
  intro w hw
  simp only [V.subs, List.mem_cons, mem_subss] at hw
  rcases hw with rfl | ⟨u, hu, hw⟩
  · simp
  · obtain ⟨a, _, rfl⟩ := List.mem_map.1 hu
    simp [V.subs] at hw
    subst hw
    simp

theorem refs_mem {as : List Nat} {p : Nat} (h : V.ref p ∈ (V.list (as.map .ref)).subs) : p ∈ as := by
  simp only [V.subs, List.mem_cons, reduceCtorEq, false_or, mem_subss] at h
  obtain ⟨u, hu, hw⟩ := h
  obtain ⟨a, ha, rfl⟩ := List.mem_map.1 hu
  simp [V.subs] at hw
  subst hw
  exact ha

section
variable {env : Env} {m1 m' : Mem} {obj : V} {φ : Nat → Nat}

/-- the originals and the copies -/
def Both (m1 : Mem) (obj : V) (φ : Nat → Nat) (o : Nat) : Prop := Reachable m1 false obj (.ref o) ∨ ∃ a, Reachable m1 false obj (.ref a) ∧ o = φ a

theorem Pair.left (hN : ∀ o, Reachable m1 false obj (.ref o) → ∃ x z, Node env m1 m' obj φ o x z) {c : ECls} {k : String} {v w : V}
    (h : Pair m' φ (fun a => Reachable m1 false obj (.ref a)) c k v w) : Side m' (Both m1 obj φ) c k v := by
  cases h with
  | forward ha hv tv sv sw hg hS hk hc =>
    refine ⟨sv, pairs_of (noTuple_subs v hv tv), fun p hp => .inl (hS p hp), .inl ⟨hk, ?_, hc⟩⟩
    rcases hg with h | ⟨h1, h2⟩
    · exact .inl h
    · refine .inr ⟨fun p hp => ?_, h2⟩
      obtain ⟨y, hy, hc⟩ := isCls_ref (h1 p hp)
      exact (rankIn_template hy).1 hc
  | back as bs hv hw hp hS hk hc =>
    subst hv
    exact ⟨shape_refs as, pairs_refs as, fun p hp => .inl (hS p (refs_mem hp)), .inr ⟨hk, ⟨as, rfl⟩, hc⟩⟩

theorem Pair.right (hN : ∀ o, Reachable m1 false obj (.ref o) → ∃ x z, Node env m1 m' obj φ o x z) {c : ECls} {k : String} {v w : V}
    (h : Pair m' φ (fun a => Reachable m1 false obj (.ref a)) c k v w) : Side m' (Both m1 obj φ) c k w := by
  cases h with
  | forward ha hv tv sv sw hg hS hk hc =>
    have hr : ∀ q, V.ref q ∈ w.subs → ∃ o, V.ref o ∈ v.subs ∧ q = φ o := by
      intro q hq
      obtain ⟨o, ho, e⟩ := alike_ref v w hv ha q hq (fun o w h => ⟨_, h⟩)
      cases e
      exact ⟨o, ho, rfl⟩
    refine ⟨sw, pairs_of (alike_noTuple v w hv tv ha), fun q hq => ?_, .inl ⟨hk, ?_, fun h q hq => ?_⟩⟩
    · obtain ⟨o, ho, rfl⟩ := hr q hq
      exact .inr ⟨o, hS o ho, rfl⟩
    · rcases hg with ⟨p, rfl⟩ | ⟨h1, h2⟩
      · simp only [alike] at ha
        exact .inl ⟨_, ha⟩
      · refine .inr ⟨fun q hq => ?_, fun l hl q hq => ?_⟩
        · obtain ⟨o, ho, rfl⟩ := hr q hq
          obtain ⟨y, hy, hc⟩ := isCls_ref (h1 o ho)
          obtain ⟨x, z, n⟩ := hN o (hS o ho)
          rw [n.orig] at hy
          cases hy
          rw [← n.cls] at hc
          exact (rankIn_template n.copy).1 hc
        · obtain ⟨l0, o, h3, h4⟩ := alike_iter hv tv ha hl hq
          exact h2 l0 h3 o h4
    · obtain ⟨o, ho, _⟩ := hr q hq
      exact hc h o ho
  | back as bs hv hw hp hS hk hc =>
    subst hw
    refine ⟨shape_refs bs, pairs_refs bs, fun p hm => ?_, .inr ⟨hk, ⟨bs, rfl⟩, hc⟩⟩
    obtain ⟨a, ha, rfl⟩ := List.mem_map.1 (hp.mem_iff.1 (refs_mem hm))
    exact .inr ⟨a, hS a ha, rfl⟩

theorem both_side (hN : ∀ o, Reachable m1 false obj (.ref o) → ∃ x z, Node env m1 m' obj φ o x z) {o : Nat} (ho : Both m1 obj φ o) :
    ∃ x, m'[o]? = some x ∧ Dict.WF x.uids ∧ Dict.WF (dictForCompare m' x) ∧ ∀ e ∈ dictForCompare m' x, Side m' (Both m1 obj φ) x.cls e.1 e.2 := by
  rcases ho with ho | ⟨a, ha, rfl⟩
  · obtain ⟨x, z, n⟩ := hN o ho
    refine ⟨x, n.orig, n.uidsWF, n.wf, fun e he => ?_⟩
    obtain ⟨w, _, h⟩ := n.there e he
    exact h.left hN
  · obtain ⟨x, z, n⟩ := hN a ha
    refine ⟨z, n.copy, n.uidsWF', n.wf', fun e he => ?_⟩
    obtain ⟨w, _, h⟩ := n.fore e he
    rw [n.cls]
    exact h.right hN

theorem get?_perm {a b : List (String × String)} (h : a.Perm b) (ha : Dict.WF a) (hb : Dict.WF b) (s : String) : Dict.get? a s = Dict.get? b s := by
  cases e : Dict.get? b s with
  | some v => exact (Dict.mem_iff_get? ha).1 (h.mem_iff.2 (Dict.mem_of_get? e))
  | none =>
    cases e' : Dict.get? a s with
    | none => rfl
    | some v =>
      have := (Dict.mem_iff_get? hb).1 (h.mem_iff.1 (Dict.mem_of_get? e'))
      rw [e] at this
      cases this

open Classical in
/-- originals and copies are equal, if what is known of each pair is as above -/
theorem equal_of_nodes (hN : ∀ o, Reachable m1 false obj (.ref o) → ∃ x z, Node env m1 m' obj φ o x z)
    (hinj : ∀ o p, Reachable m1 false obj (.ref o) → Reachable m1 false obj (.ref p) → φ o = φ p → o = p)
    (hua : Unambiguous env.lower m1 obj) (hid : Identified m1 obj) {D : Nat → List (String × V)} (hD : ∀ o, (D o).Perm (dictIn m' o)) :
    ∃ n k, (∀ o, Reachable m1 false obj (.ref o) → equals (uidsIn m') D n k o (φ o) = some (.ok true) ∧ equals (uidsIn m') D n k (φ o) o = some (.ok true)) ∧
      ∀ v w, Json.wf v → noTuple v → ShapeOk v → (∀ o, V.ref o ∈ v.subs → Reachable m1 false obj (.ref o)) → alike (fun o u => u = .ref (φ o)) SameLink v w →
        eqV (uidsIn m') (equals (uidsIn m') D n k) v w = some (.ok true) := by
  let S := Both m1 obj φ
  let U' : Nat → List (String × String) := fun o => if S o then uidsIn m' o else []
  let D' : Nat → List (String × V) := fun o => if S o then D o else []
  have hU' : ∀ {o}, S o → U' o = uidsIn m' o := fun h => if_pos h
  have hD' : ∀ {o}, S o → D' o = D o := fun h => if_pos h
  have uin : ∀ {o : Nat} {x : EObj}, m'[o]? = some x → uidsIn m' o = x.uids := fun h => by simp [uidsIn, h]
  have din : ∀ {o : Nat} {x : EObj}, m'[o]? = some x → dictIn m' o = dictForCompare m' x := fun h => by simp [dictIn, h]
  have side : ∀ {o k v}, (k, v) ∈ D' o → S o ∧ ∃ x, m'[o]? = some x ∧ Side m' S x.cls k v := by
    intro o k v h
    by_cases hs : S o
    · refine ⟨hs, ?_⟩
      obtain ⟨x, hx, _, _, h4⟩ := both_side hN hs
      refine ⟨x, hx, h4 (k, v) ?_⟩
      rw [hD' hs, (hD o).mem_iff, din hx] at h
      exact h
    · simp [D', hs] at h
  have hP : Proper U' D' := by
    constructor
    · intro o
      by_cases hs : S o
      · obtain ⟨x, hx, h1, _⟩ := both_side hN hs
        rw [hU' hs, uin hx]
        exact h1
      · simp [U', hs, Dict.WF, Dict.keys]
    · intro o
      by_cases hs : S o
      · obtain ⟨x, hx, _, h2, _⟩ := both_side hN hs
        rw [hD' hs]
        unfold Dict.WF Dict.keys at h2 ⊢
        rw [((hD o).map Prod.fst).nodup_iff, din hx]
        exact h2
      · simp [D', hs, Dict.WF, Dict.keys]
    · intro o k v h
      obtain ⟨_, x, _, hs⟩ := side h
      exact hs.shape
  have hlen : ∀ {p}, S p → p < m'.length := by
    intro p hp
    obtain ⟨x, hx, _⟩ := both_side hN hp
    exact (List.getElem?_eq_some_iff.1 hx).1
  have low : ∀ {o : Nat} {x : EObj}, m'[o]? = some x → (x.cls ∈ attributeTemplates → False) → rankIn m' o = 1 := fun h hc => (rankIn_template h).2 hc
  have hR : Ranked D' m'.length (rankIn m') := by
    have top : ∀ {o k v p}, (k, v) ∈ D' o → V.ref p ∈ v.subs → rankIn m' p ≤ rankIn m' o := by
      intro o k v p h hp
      obtain ⟨_, x, hx, hs⟩ := side h
      have hl := rankIn_le m' p
      rcases hs.kind with ⟨_, _, hc⟩ | ⟨_, _, hc⟩
      · have := low hx (fun h => hc h p hp)
        omega
      · have := low hx hc
        omega
    have inn : ∀ {o k v p}, (k, v) ∈ D' o → (∀ q, v ≠ .ref q) → (∀ l, iter v = some l → V.ref p ∉ l) → V.ref p ∈ v.subs → rankIn m' p < rankIn m' o := by
      intro o k v p h hr hl hp
      obtain ⟨_, x, hx, hs⟩ := side h
      rcases hs.kind with ⟨_, h1, hc⟩ | ⟨_, ⟨as, rfl⟩, hc⟩
      · have := low hx (fun h => hc h p hp)
        rcases h1 with ⟨q, rfl⟩ | ⟨h1, _⟩
        · exact absurd rfl (hr q)
        · have := h1 p hp
          omega
      · exact absurd (List.mem_map_of_mem (refs_mem hp)) (hl _ rfl)
    constructor
    · intro o _ k v h p hp
      obtain ⟨_, x, _, hs⟩ := side h
      exact hlen (hs.inside p hp)
    · intro o _ k p h
      exact top h (self_mem_subs _)
    · intro o _ k v l p h hl hp
      exact top h (mem_subs_of_iter hl hp (self_mem_subs _))
    · intro o _ k v p h hi hr hp
      exact inn h hr (fun l hl => by rw [hi] at hl; cases hl) hp
    · intro o _ k v l x p h hl hx hr hp
      obtain ⟨_, y, hy, hs⟩ := side h
      have hsub := mem_subs_of_iter hl hx hp
      rcases hs.kind with ⟨_, h1, hc⟩ | ⟨_, ⟨as, rfl⟩, hc⟩
      · have := low hy (fun h => hc h p hsub)
        rcases h1 with ⟨q, rfl⟩ | ⟨h1, _⟩
        · simp [iter] at hl
        · have := h1 p hsub
          omega
      · simp only [iter, Option.some.injEq] at hl
        subst hl
        obtain ⟨a, _, rfl⟩ := List.mem_map.1 hx
        exact absurd rfl (hr a)
  have hT : Typed D' entityKeys := by
    constructor
    · intro o k v l h hk hl x hx
      obtain ⟨_, y, _, hs⟩ := side h
      rcases hs.kind with ⟨h1, _⟩ | ⟨_, ⟨as, rfl⟩, _⟩
      · rw [hk] at h1; cases h1
      · simp only [iter, Option.some.injEq] at hl
        subst hl
        obtain ⟨a, _, rfl⟩ := List.mem_map.1 hx
        exact .inl ⟨a, rfl⟩
    · intro o k v l h hk hl x hx q e
      subst e
      obtain ⟨_, y, _, hs⟩ := side h
      rcases hs.kind with ⟨_, h1, _⟩ | ⟨h1, _⟩
      · rcases h1 with ⟨q, rfl⟩ | ⟨_, h1⟩
        · simp [iter] at hl
        · exact h1 l hl q hx
      · rw [hk] at h1; cases h1
    · intro o k v h
      obtain ⟨_, y, _, hs⟩ := side h
      exact hs.pairs
  have so : ∀ {a}, Reachable m1 false obj (.ref a) → S a := fun h => .inl h
  have sc : ∀ {a}, Reachable m1 false obj (.ref a) → S (φ a) := fun {a} h => .inr ⟨a, h, rfl⟩
  have hC : Copies U' D' (CopyRel φ (fun a => Reachable m1 false obj (.ref a))) := by
    have pair : ∀ {a k v w}, Reachable m1 false obj (.ref a) → (k, v) ∈ D' a → (k, w) ∈ D' (φ a) →
        ∃ c, Pair m' φ (fun a => Reachable m1 false obj (.ref a)) c k v w := by
      intro a k v w ha hv hw
      obtain ⟨x, z, n⟩ := hN a ha
      rw [hD' (so ha), (hD a).mem_iff, din n.orig] at hv
      rw [hD' (sc ha), (hD _).mem_iff, din n.copy] at hw
      obtain ⟨w', hw', hp⟩ := n.there _ hv
      have e1 := (Dict.mem_iff_get? n.wf').1 hw
      have e2 := (Dict.mem_iff_get? n.wf').1 hw'
      simp only at e2
      rw [e1] at e2
      cases e2
      exact ⟨_, hp⟩
    have ids : ∀ {a}, Reachable m1 false obj (.ref a) → ∀ s, Dict.get? (U' a) s = Dict.get? (U' (φ a)) s := by
      intro a ha s
      obtain ⟨x, z, n⟩ := hN a ha
      rw [hU' (so ha), hU' (sc ha), uin n.orig, uin n.copy]
      exact (get?_perm n.uids n.uidsWF' n.uidsWF s).symm
    refine ⟨⟨?_, ?_, ?_, ?_, ?_⟩, ?_⟩
    · rintro p q q' ⟨_, rfl⟩ ⟨_, rfl⟩; rfl
    · rintro p p' q ⟨h1, rfl⟩ ⟨h2, e⟩
      exact hinj _ _ h1 h2 e
    · rintro a b ⟨ha, rfl⟩ s
      exact ids ha s
    · rintro a b ⟨ha, rfl⟩ k
      obtain ⟨x, z, n⟩ := hN a ha
      unfold Dict.keys
      rw [hD' (so ha), hD' (sc ha), ((hD a).map Prod.fst).mem_iff, ((hD (φ a)).map Prod.fst).mem_iff, din n.orig, din n.copy]
      constructor
      · intro h
        obtain ⟨e, he, rfl⟩ := List.mem_map.1 h
        obtain ⟨w, hw, _⟩ := n.there e he
        exact List.mem_map.2 ⟨_, hw, rfl⟩
      · intro h
        obtain ⟨e, he, rfl⟩ := List.mem_map.1 h
        obtain ⟨w, hw, _⟩ := n.fore e he
        exact List.mem_map.2 ⟨_, hw, rfl⟩
    · rintro a b ⟨ha, rfl⟩ k v w hv hw
      obtain ⟨c, hp⟩ := pair ha hv hw
      cases hp with
      | forward ha hv tv sv sw hg hS hk hc => exact alike_copy hv tv hS ha
      | back as bs hv hw hp hS hk hc =>
        subst hv hw
        refine .list rfl rfl (l'' := (as.map φ).map .ref) ?_ (hp.symm.map _)
        clear hp hv
        induction as with
        | nil => exact .nil
        | cons a as ih => exact .cons (.ref ⟨hS a List.mem_cons_self, rfl⟩) (ih (fun o ho => hS o (List.mem_cons_of_mem _ ho)))
    · rintro a b ⟨ha, rfl⟩ k v w l l' p q hv hw hl hl' hp hq hnr
      obtain ⟨c, hpr⟩ := pair ha hv hw
      cases hpr with
      | forward ha hv tv sv sw hg hS hk hc =>
        rcases hg with ⟨_, rfl⟩ | ⟨_, h2⟩
        · simp [iter] at hl
        · exact absurd hp (h2 l hl p)
      | back as bs hv hw hperm hS hk hc =>
        subst hv hw
        simp only [iter, Option.some.injEq] at hl hl'
        subst hl hl'
        obtain ⟨p', hp', e⟩ := List.mem_map.1 hp
        cases e
        obtain ⟨q', hq', e⟩ := List.mem_map.1 hq
        cases e
        obtain ⟨r, hr, rfl⟩ := List.mem_map.1 (hperm.mem_iff.1 hq')
        left
        obtain ⟨x, z, n⟩ := hN p (hS p hp')
        obtain ⟨x2, z2, n2⟩ := hN r (hS r hr)
        have hne := hid p x n.old (hS p hp')
        obtain ⟨⟨s, i⟩, us, hus⟩ := List.exists_cons_of_ne_nil hne
        refine ⟨s, fun e => hnr ⟨hS p hp', ?_⟩⟩
        rw [← ids (hS r hr) s, hU' (so (hS p hp')), hU' (so (hS r hr)), uin n.orig, uin n2.orig] at e
        have h1 : (s, i) ∈ x.uids := by rw [hus]; exact List.mem_cons_self
        have h2 : (s, i) ∈ x2.uids := Dict.mem_of_get? (e ▸ Dict.get?_of_mem n.uidsWF h1)
        have : p = r := hua p r (env.lower s) i (hS p hp') (hS r hr) ⟨x, n.old, s, h1, rfl⟩ ⟨x2, n2.old, s, h2, rfl⟩
        rw [this]
  have fin := fun {o} ho => C34_isomorphic_partial hP hC hR hT (m'.length * m'.length + 1) (by omega) 2 o (φ o) (hlen (so ho)) (hlen (sc ho))
    (by have := rankIn_le m' o; omega) (by have := rankIn_le m' (φ o); omega) ⟨ho, rfl⟩
  have cong := fun a b ha hb => equals_cong (U := uidsIn m') (U' := U') (D := D) (D' := D') (S := S) (fun o h => (hU' h).symm) (fun o h => (hD' h).symm)
    (by
      intro o h e he p hp
      rw [← hD' h] at he
      obtain ⟨_, x, _, hs⟩ := side (k := e.1) (v := e.2) he
      exact hs.inside p hp) (m'.length * m'.length + 1) 2 a b ha hb
  have eqs : ∀ o, Reachable m1 false obj (.ref o) → equals (uidsIn m') D (m'.length * m'.length + 1) 2 o (φ o) = some (.ok true) ∧
      equals (uidsIn m') D (m'.length * m'.length + 1) 2 (φ o) o = some (.ok true) := fun o ho =>
    ⟨(cong o (φ o) (so ho) (sc ho)).trans (fin ho).1, (cong (φ o) o (sc ho) (so ho)).trans (fin ho).2⟩
  refine ⟨_, _, eqs, fun v w hv tv sv hS ha => ?_⟩
  have hsure : Sure (eqV (uidsIn m') (equals (uidsIn m') D (m'.length * m'.length + 1) 2) v w) :=
    eqV_mapped (R := CopyRel φ (fun a => Reachable m1 false obj (.ref a))) (fun p q h b hb => by
      obtain ⟨hp, rfl⟩ := h
      rw [(eqs p hp).1] at hb
      cases hb
      rfl) v w (alike_mapped v w hv hS ha) sv
  obtain ⟨r, hr, he⟩ := eqV_total (E := False) (U := uidsIn m') (P := S) (Q := S) (ent := equals (uidsIn m') D (m'.length * m'.length + 1) 2) (by
    intro a b ha hb
    rw [cong a b ha hb]
    obtain ⟨r, hr⟩ := C33_answers_partial (U := U') hR hT (m'.length * m'.length + 1) (by omega) 2 a b (hlen ha) (hlen hb)
      (by have := rankIn_le m' a; omega) (by have := rankIn_le m' b; omega)
    rw [hr]
    exact Ends.ok) v w (fun o ho => so (hS o ho)) (fun q hq => by
      obtain ⟨o, ho, e⟩ := alike_ref v w hv ha q hq (fun o w h => ⟨_, h⟩)
      cases e
      exact sc (hS o ho)) (.inr ⟨pairs_of (noTuple_subs v hv tv), pairs_of (alike_noTuple v w hv tv ha)⟩)
  cases r with
  | error e => exact absurd (he e rfl) id
  | ok b => rw [hr, hsure b hr]
end

/-- **C58.** `dumps`, then `loads`, in the same program: what is read is `==` to what was written; and so is, in both directions, every entity that was read to the
one it was read for. `D` is the dictionary of each entity that `==` compares, in any order; `n` and `k` bound nested calls. The entities that are read are new ones.
Partial: the object graphs are those of C43 (`Writable`); `Fresh` for the ids that are drawn. -/
theorem C58_copy_equal_partial (env : Env) (m : Mem) (obj : V) (scope : String) (gen : Nat → String) (drawn : Nat) (h : Writable env m obj) (hsc : scope ≠ "type")
    (hf : Fresh env.lower m obj scope gen drawn) :
    ∃ (n : Nat) (m1 : Mem) (t : V) (M : Mem) (w : V) (m' : Mem) (φ : Nat → Nat), (∀ n' ≥ n, dumps env scope gen n' m drawn obj = some (.ok (t, M))) ∧
      Numbered scope m m1 obj ∧ Extends m1 M ∧ loads env M t = .ok (w, m') ∧ Extends M m' ∧ alike (fun o u => u = .ref (φ o)) SameLink obj w ∧
      (∀ o, Reachable m false obj (.ref o) → M.length ≤ φ o) ∧
      ∀ D : Nat → List (String × V), (∀ o, (D o).Perm (dictIn m' o)) → ∃ n k,
        eqV (uidsIn m') (equals (uidsIn m') D n k) obj w = some (.ok true) ∧
        ∀ o, Reachable m false obj (.ref o) → Result (uidsIn m') D o (φ o) (.ok true) ∧ Result (uidsIn m') D (φ o) o (.ok true) := by
  obtain ⟨n, m1, c1, h1, h2, h3⟩ := writable_numbered scope gen drawn h hsc hf
  obtain ⟨n2, l, M, t, k1, ⟨ys, rfl⟩, kT, k3, k4⟩ := round_trip h3 h2.all
  obtain ⟨w, m', φ, j1, j2, j3, j4, j5⟩ := k4 (m1 ++ ys)
  have hE := C44_loads_keeps env _ t w m' (written_noRef k3) j1
  have hT := j4 kT
  obtain ⟨zs, rfl⟩ := hE
  rw [List.append_assoc] at hT j2 j5
  have hr : ∀ o, Reachable m false obj (.ref o) → Reachable m1 false obj (.ref o) := fun o ho => (reachable_congr h2.same).2 ho
  refine ⟨max n n2, m1, t, m1 ++ ys, w, m1 ++ ys ++ zs, φ, ?_, h2, ⟨ys, rfl⟩, j1, ⟨zs, rfl⟩, j2.root, fun o ho => j3 o (hr o ho), ?_⟩
  · intro n' hn'
    unfold dumps
    simp only [flatten, h1 n' (by omega), k1 n' (by omega), k3]
  · intro D hD
    rw [List.append_assoc] at hD ⊢
    obtain ⟨n, k, e1, e2⟩ := equal_of_nodes (fun o ho => node h3 hT j2 j5 ho) j2.inj h3.apart h2.all hD
    refine ⟨n, k, e2 obj w h3.wf h3.noTuple (wf_shape h3.wf h3.ok) (fun o ho => reach_subs m1 false obj h3.wf _ ho) j2.root, fun o ho => ?_⟩
    obtain ⟨e3, e4⟩ := e1 o (hr o ho)
    exact ⟨⟨n, k, e3⟩, ⟨n, k, e4⟩⟩

/-- C58 for entities made by constructors: nothing is asked of back-links, except that no two materials in reach have the same process. -/
theorem C58_built_partial (env : Env) (hsane : Sane env) (m : Mem) (hb : Built env m) (o : Nat) (scope : String) (gen : Nat → String) (drawn : Nat)
    (graph : Flattenable env m (.ref o)) (there : ∀ p, Reachable m false (.ref o) (.ref p) → p < m.length)
    (apart : Unambiguous env.lower m (.ref o)) (foreign : Foreign env.lower m (.ref o))
    (one : ∀ a c b, Reachable m false (.ref o) (.ref a) → Reachable m false (.ref o) (.ref c) → Points m "_output_material" a b → Points m "_output_material" c b → a = c)
    (hsc : scope ≠ "type") (hf : Fresh env.lower m (.ref o) scope gen drawn) :
    ∃ n t M q m', (∀ n' ≥ n, dumps env scope gen n' m drawn (.ref o) = some (.ok (t, M))) ∧ loads env M t = .ok (.ref q, m') ∧ M.length ≤ q ∧
      ∀ D : Nat → List (String × V), (∀ o, (D o).Perm (dictIn m' o)) → Result (uidsIn m') D o q (.ok true) ∧ Result (uidsIn m') D q o (.ok true) := by
  obtain ⟨n, m1, t, M, w, m', φ, h1, _, _, h4, _, h6, h7, h8⟩ := C58_copy_equal_partial env m (.ref o) scope gen drawn
    ⟨graph, there, by simp [Json.wf], by simp [noTuple], by simp [okV], apart, foreign, Built.backLinked hsane hb one⟩ hsc hf
  have hw : w = .ref (φ o) := by simpa [alike] using h6
  subst hw
  refine ⟨n, t, M, φ o, m', h1, h4, h7 o (.refl _), fun D hD => ?_⟩
  obtain ⟨_, _, _, h⟩ := h8 D hD
  exact h o (.refl _)

/-- the hypotheses are met by the sample of C43: a material, its process with two ingredients, a measurement, some of them without ids -/
example : ∃ n t M q m', (∀ n' ≥ n, dumps plainEnv "auto" xs n' trip 0 (.ref 4) = some (.ok (t, M))) ∧ loads plainEnv M t = .ok (.ref q, m') ∧ M.length ≤ q ∧
    ∀ D : Nat → List (String × V), (∀ o, (D o).Perm (dictIn m' o)) → Result (uidsIn m') D 4 q (.ok true) ∧ Result (uidsIn m') D q 4 (.ok true) := by
  obtain ⟨h1, h2, h3, _, h5, h6, h7, h8, _⟩ := trip_meets
  exact C58_built_partial plainEnv plainEnv_sane trip h1 4 "auto" xs 0 h2 h3 h5 h6 h7 (by decide) h8

/-! ### Where the property fails -/

/-- a material, a measurement of it, and a measurement of a link to it -/
def lateCalls : List (ECls × List (String × V)) := [(.materialRun, [("name", .str "n"), ("uids", .dict [.str "id"] [.str "n"])]),
  (.measurementRun, [("name", .str "u"), ("material", .ref 0), ("uids", .dict [.str "id"] [.str "u"])]),
  (.measurementRun, [("name", .str "v"), ("material", .link "id" "n"), ("uids", .dict [.str "id"] [.str "v"])])]

/-- what they make -/
def late : Mem := match callAll plainEnv [] lateCalls with
  | .ok m => m
  | .error _ => []

theorem late_built : Built plainEnv late := easy_built (calls := lateCalls) .nil (by decide +kernel) (by decide +kernel)

/-- C58 fails when a link means an entity in reach: the copy of the material has two measurements, the original one. -/
theorem C58_link_counterexample : Built plainEnv late ∧ Flattenable plainEnv late (.list [.ref 0, .ref 2]) ∧
    ∃ n t M q r m', dumps plainEnv "auto" xs n late 0 (.list [.ref 0, .ref 2]) = some (.ok (t, M)) ∧ loads plainEnv M t = .ok (.list [.ref q, .ref r], m') ∧
      Result (uidsIn m') (dictIn m') 0 q (.ok false) := by
  refine ⟨late_built, flattenOk_spec (late_built.wellTyped plainEnv_sane) (by decide +kernel), 200, ?_⟩
  have key : ((dumps plainEnv "auto" xs 200 late 0 (.list [.ref 0, .ref 2])).any fun r => match r with
      | .ok (t, M) => (match loads plainEnv M t with
        | .ok (.list [.ref q, .ref r], m') => decide (equals (uidsIn m') (dictIn m') 100 2 0 q = some (.ok false))
        | _ => false)
      | .error _ => false) = true := by decide +kernel
  rw [Option.any_eq_true] at key
  obtain ⟨r, hr, key⟩ := key
  split at key
  · rename_i t M
    split at key
    · rename_i q r m' hl
      exact ⟨t, M, q, r, m', hr, hl, 100, 2, by simpa using key⟩
    · cases key
  · cases key

/-- C58 fails for tuples: `(1,) == [1]` is False. -/
theorem C58_tuple_counterexample : ∃ n t M w m', dumps plainEnv "auto" xs n [] 0 (.tuple [.int 1]) = some (.ok (t, M)) ∧ loads plainEnv M t = .ok (w, m') ∧
    ∀ U ent, eqV U ent (.tuple [.int 1]) w = some (.ok false) := by
  refine ⟨200, ?_⟩
  have key : ((dumps plainEnv "auto" xs 200 [] 0 (.tuple [.int 1])).any fun r => match r with
      | .ok (t, M) => (match loads plainEnv M t with
        | .ok (w, _) => decide (w = .list [.int 1])
        | _ => false)
      | .error _ => false) = true := by decide +kernel
  rw [Option.any_eq_true] at key
  obtain ⟨r, hr, key⟩ := key
  split at key
  · rename_i t M
    split at key
    · rename_i w m' hl
      simp only [decide_eq_true_eq] at key
      subst key
      exact ⟨t, M, _, m', hr, hl, fun U ent => by simp [eqV]⟩
    · cases key
  · cases key

end Verif.Substitute
