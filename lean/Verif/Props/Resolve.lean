import Verif.Props.RawCopy
import Verif.Props.BackLinks
import Verif.Props.Visit
/-!
# `_substitute` with a function that replaces links by entities

What `substitute_objects` does to a value and to the entities in it (util/impl.py:88-137, 304-331): each object is built again from its
substituted attributes, and each of these `build`s copies the entities in it once more. Copies of copies are copies.
-/

set_option linter.unusedSimpArgs false
set_option linter.unusedVariables false
set_option linter.unusedSectionVars false

namespace Verif.Json
open Verif.Py Verif.Value Verif.Schema Verif.Substitute

/-! ## Copies of copies -/

theorem Img.comp {ψ ψ2 : Nat → Nat} {v u u' : V} (h : Img ψ v u) (h2 : Img ψ2 u u') (hu : wf u) (hu' : wf u') : Img (fun p => ψ (ψ2 p)) v u' := by
  have e1 : via (fun p => ψ (ψ2 p)) u' = via ψ (via ψ2 u') := by
    unfold via
    rw [tr_tr (F := fun p => .ref (ψ (ψ2 p))) (G := .link) u' hu' (fun o _ => by simp [tr]) (fun s i _ => by simp [tr])]
  unfold Img at *
  have key : ∀ w, wf w → nf (via ψ w) = via ψ (nf w) := fun w hw => tr_nf w hw (fun _ _ => trivial) (fun _ _ _ => trivial)
  rw [e1, key _ (wf_via hu'), h2, ← key _ hu, h]

/-- the origin of a copy of a copy -/
def after (n : Nat) (ψ ψ2 : Nat → Nat) : Nat → Nat := fun p => if p < n then ψ p else ψ (ψ2 p)

section
variable {env : Env} {M m0 mem mem' : Mem} {S S2 : Nat → Prop} {ψ ψ2 : Nat → Nat}

theorem Good.comp {v u u' : V} (h : Good env mem m0.length ψ v u) (h2 : Good env mem' mem.length ψ2 u u') (hl : m0.length ≤ mem.length) :
    Good env mem' m0.length (after mem.length ψ ψ2) v u' := by
  refine ⟨?_, h2.wf, h2.noTuple, h2.ok, fun p hp => ⟨Nat.le_trans hl (h2.refs p hp).1, (h2.refs p hp).2⟩⟩
  refine (h.img.comp h2.img h.wf h2.wf).congr (fun p hp => ?_)
  unfold after
  rw [if_neg (by have := (h2.refs p hp).1; omega)]

theorem Copies.ext (hC : Copies env M S m0 ψ mem) (hC2 : Copies env mem S2 mem ψ2 mem') : Ext ψ mem (after mem.length ψ ψ2) mem' := by
  refine ⟨?_, hC2.len, fun p hp => by unfold after; rw [if_pos hp]⟩
  intro o x hx
  have ho := (List.getElem?_eq_some_iff.1 hx).1
  exact ⟨x, by rw [hC2.old o ho]; exact hx, rfl, fun _ h => h⟩

theorem Copies.comp (hC : Copies env M S m0 ψ mem) (hC2 : Copies env mem S2 mem ψ2 mem') (hS : ∀ p, S2 p → m0.length ≤ p) (hS' : ∀ p, S2 p → p < mem.length) :
    Copies env M S m0 (after mem.length ψ ψ2) mem' := by
  have hE := hC.ext hC2
  refine ⟨hC2.typed, Nat.le_trans hC.len hC2.len, fun p hp => ?_, ?_⟩
  · rw [hC2.old p (Nat.lt_of_lt_of_le hp hC.len), hC.old p hp]
  · intro p z hp hz
    by_cases hlt : p < mem.length
    · rw [hC2.old p hlt] at hz
      obtain ⟨x, hx, hs, ht⟩ := hC.twin p z hp hz
      have e : after mem.length ψ ψ2 p = ψ p := hE.agree p hlt
      have hA : asDict mem' z = asDict mem z := asDict_kept hC.typed (fun q y hy => ⟨y, by
        rw [hC2.old q (List.getElem?_eq_some_iff.1 hy).1]; exact hy, .inl rfl⟩) hz (.inl rfl)
      refine ⟨x, by rw [e]; exact hx, by rw [e]; exact hs, ht.cls, ht.bounds, ht.spec, by rw [hA]; exact ht.names, ?_, by rw [hA]; exact ht.plain⟩
      intro f hf
      obtain ⟨u, hu, hi⟩ := ht.fields f hf
      exact ⟨u, by rw [hA]; exact hu, hi.congr (fun q hq => hE.agree q (Nat.lt_trans ((ht.plain _ hu).2.2 q hq).2 hlt))⟩
    · have hge : mem.length ≤ p := by omega
      obtain ⟨y, hy, hs2, ht2⟩ := hC2.twin p z hge hz
      obtain ⟨x, hx, hs, ht⟩ := hC.twin (ψ2 p) y (hS _ hs2) hy
      have e : after mem.length ψ ψ2 p = ψ (ψ2 p) := by unfold after; rw [if_neg hlt]
      refine ⟨x, by rw [e]; exact hx, by rw [e]; exact hs, ht2.cls.trans ht.cls, ht2.bounds.trans ht.bounds, ?_, ht2.names.trans ht.names, ?_, ?_⟩
      · intro hc
        have h1 := ht.spec hc
        have h2 := ht2.spec (by rw [ht.cls]; exact hc)
        exact ⟨h2.1.trans h1.1, h2.2.trans h1.2⟩
      · intro f hf
        obtain ⟨u, hu, hi⟩ := ht.fields f hf
        obtain ⟨u', hu', hi'⟩ := ht2.fields _ hu
        refine ⟨u', hu', (hi.comp hi' (ht.plain _ hu).1 (ht2.plain _ hu').1).congr (fun q hq => ?_)⟩
        unfold after
        rw [if_neg (by have := ((ht2.plain _ hu').2.2 q hq).1; omega)]
      · intro g hg
        obtain ⟨a, b, c⟩ := ht2.plain g hg
        exact ⟨a, b, fun q hq => ⟨Nat.le_trans hC.len (c q hq).1, (c q hq).2⟩⟩

/-- the copies among themselves can be written -/
theorem Copies.writes (hC : Copies env M S m0 ψ mem) (k p : Nat) (h1 : m0.length ≤ p) (h2 : p < mem.length) (hk : p < k) : ∃ t, encRef mem k p = .ok t := by
  induction k generalizing p with
  | zero => omega
  | succ k ih =>
    obtain ⟨x, _, _, ht⟩ := hC.twin p _ h1 (List.getElem?_eq_getElem h2)
    rw [encRef_succ (List.getElem?_eq_getElem h2) (fun e he => (ht.plain e he).1)]
    rintro q ⟨x', hx', e, he, hq⟩
    rw [List.getElem?_eq_getElem h2] at hx'
    cases hx'
    have := (ht.plain e he).2.2 q hq
    exact ih q this.1 (by omega) (by omega)

/-- **`build` of a record of copies** reads copies of them, and goes on with these. -/
theorem build_read (hC : Copies env M S m0 ψ mem) (t : String) (fs : List (String × V)) (hn : (fs.map Prod.fst).Nodup) (hty : "type" ∉ fs.map Prod.fst)
    (hself : "self" ∉ fs.map Prod.fst) (hf : ∀ f ∈ fs, ∃ v, Good env mem m0.length ψ v f.2) :
    ∃ d st ψ', build env mem (mkDict (("type", .str t) :: fs)) = (match loadAs env false t d st with
        | .error e => .error e
        | .ok (w, st') => .ok (w, st'.mem)) ∧
      Ext ψ mem ψ' st.mem ∧ Copies env M S m0 ψ' st.mem ∧
      ∀ f ∈ fs, ∃ u, Dict.get? d f.1 = some u ∧ ∀ v, Good env mem m0.length ψ v f.2 → Good env st.mem m0.length ψ' v u := by
  let S2 : Nat → Prop := fun p => m0.length ≤ p ∧ p < mem.length
  have hS2 : ∀ o, S2 o → ∃ x, mem[o]? = some x ∧ ∀ f ∈ asDict mem x, wf f.2 ∧ ∀ q, V.ref q ∈ f.2.subs → S2 q := by
    intro o ho
    obtain ⟨x, _, _, ht⟩ := hC.twin o _ ho.1 (List.getElem?_eq_getElem ho.2)
    refine ⟨_, List.getElem?_eq_getElem ho.2, fun f hf => ⟨(ht.plain f hf).1, fun q hq => ?_⟩⟩
    have := (ht.plain f hf).2.2 q hq
    exact ⟨this.1, by have := ho.2; omega⟩
  let E := encRef mem (mem.length + 1)
  have hwr : ∀ f ∈ fs, enc E f.2 = .ok (encd E f.2) := by
    intro f hff
    obtain ⟨v, hg⟩ := hf f hff
    obtain ⟨t, ht⟩ := enc_total (E := E) f.2 hg.wf (fun q hq => hC.writes _ q (hg.refs q hq).1 (hg.refs q hq).2 (by have := (hg.refs q hq).2; omega))
    rw [ht]; unfold encd; rw [ht]
  have hC0 : Copies env mem S2 mem (fun p => p) mem :=
    ⟨hC.typed, Nat.le_refl _, fun _ _ => rfl, fun p z hp hz => absurd (List.getElem?_eq_some_iff.1 hz).1 (by omega)⟩
  obtain ⟨d, st, ψ2, h1, h2, h3, h4⟩ := record_read (env := env) (M := mem) (S := S2) (m0 := mem) t (encd E) (fun s => by simp [encd, enc]) fs hn hty hself (by
    intro f hff
    obtain ⟨v, hg⟩ := hf f hff
    exact reads_value (S := S2) E (fun o ho t ht => reads_ref hC.typed hS2 _ o ho t ht) f.2 hg.wf hg.ok (fun q hq => hg.refs q hq) _ (hwr f hff))
    { mem := mem, index := [] } (fun p => p) hC0
  refine ⟨d, st, after mem.length ψ ψ2, ?_, hC.ext h3, hC.comp h3 (fun p hp => hp.1) (fun p hp => hp.2), ?_⟩
  · have he : rawDumps mem (mkDict (("type", .str t) :: fs)) = .ok (mkDict (sortFields (("type", .str t) :: onSnd (encd E) fs))) := by
      have hs : encs E (fs.map Prod.snd) = .ok ((fs.map Prod.snd).map (encd E)) := by
        have : ∀ l : List V, (∀ v ∈ l, enc E v = .ok (encd E v)) → encs E l = .ok (l.map (encd E)) := by
          intro l
          induction l with
          | nil => intro _; rfl
          | cons v vs ih => intro h; simp only [encs, h v (by simp), ih (fun v hv => h v (by simp [hv])), List.map_cons]
        apply this
        intro v hv
        obtain ⟨f, hff, rfl⟩ := List.mem_map.1 hv
        exact hwr f hff
      unfold rawDumps
      have hk : strings ((("type", V.str t) :: fs).map (fun f => V.str f.1)) = some ((("type", V.str t) :: fs).map Prod.fst) := mkDict_keys _
      have hs' : encs E ((("type", V.str t) :: fs).map Prod.snd) = .ok (.str t :: (fs.map Prod.snd).map (encd E)) := by
        simp only [List.map_cons, encs, enc]
        rw [hs]
      rw [show encRef mem (mem.length + 1) = E from rfl]
      unfold mkDict
      simp only [enc, hk, hs']
      simp only [List.map_cons, List.zip_cons_cons]
      rw [← onSnd_zip, zip_fst_snd]
      rfl
    simp only [build, he, rawLoads, h1]
    rfl
  · intro f hff
    obtain ⟨u, g1, g2⟩ := h4 f hff
    exact ⟨u, g1, fun v hg => hg.comp g2 hC.len⟩

end

/-! ## Values that are alike -/

section
variable {L : Nat → V → Prop} {G : String → String → V → Prop}

mutual
/-- what an entity or link became occurs in the other value -/
theorem alike_mem (v w : V) (hw : wf v) (h : alike L G v w) :
    (∀ o, V.ref o ∈ v.subs → ∃ u ∈ w.subs, L o u) ∧ ∀ s i, V.link s i ∈ v.subs → ∃ u ∈ w.subs, G s i u := by
  cases v with
  | none => exact ⟨fun o ho => by simp [V.subs] at ho, fun s i ho => by simp [V.subs] at ho⟩
  | bool b => exact ⟨fun o ho => by simp [V.subs] at ho, fun s i ho => by simp [V.subs] at ho⟩
  | int b => exact ⟨fun o ho => by simp [V.subs] at ho, fun s i ho => by simp [V.subs] at ho⟩
  | float b => exact ⟨fun o ho => by simp [V.subs] at ho, fun s i ho => by simp [V.subs] at ho⟩
  | str b => exact ⟨fun o ho => by simp [V.subs] at ho, fun s i ho => by simp [V.subs] at ho⟩
  | ref p =>
    simp only [alike] at h
    refine ⟨fun o ho => ?_, fun s i ho => by simp [V.subs] at ho⟩
    simp [V.subs] at ho
    subst ho
    exact ⟨w, self_mem_subs _, h⟩
  | link t j =>
    simp only [alike] at h
    refine ⟨fun o ho => by simp [V.subs] at ho, fun s i ho => ?_⟩
    simp [V.subs] at ho
    obtain ⟨rfl, rfl⟩ := ho
    exact ⟨w, self_mem_subs _, h⟩
  | list l =>
    simp only [alike] at h
    obtain ⟨l', rfl, h⟩ := h
    simp only [wf] at hw
    obtain ⟨h1, h2⟩ := alikes_mem' l l' hw h
    simp only [V.subs, List.mem_cons, reduceCtorEq, false_or]
    exact ⟨fun o ho => by obtain ⟨u, hu, x⟩ := h1 o ho; exact ⟨u, .inr hu, x⟩, fun s i ho => by obtain ⟨u, hu, x⟩ := h2 s i ho; exact ⟨u, .inr hu, x⟩⟩
  | tuple l =>
    simp only [alike] at h
    obtain ⟨l', rfl, h⟩ := h
    simp only [wf] at hw
    obtain ⟨h1, h2⟩ := alikes_mem' l l' hw h
    simp only [V.subs, List.mem_cons, reduceCtorEq, false_or]
    exact ⟨fun o ho => by obtain ⟨u, hu, x⟩ := h1 o ho; exact ⟨u, .inr hu, x⟩, fun s i ho => by obtain ⟨u, hu, x⟩ := h2 s i ho; exact ⟨u, .inr hu, x⟩⟩
  | obj t ns l =>
    simp only [alike] at h
    obtain ⟨l', rfl, h⟩ := h
    simp only [wf] at hw
    obtain ⟨h1, h2⟩ := alikes_mem' l l' hw.2 h
    simp only [V.subs, List.mem_cons, reduceCtorEq, false_or]
    exact ⟨fun o ho => by obtain ⟨u, hu, x⟩ := h1 o ho; exact ⟨u, .inr hu, x⟩, fun s i ho => by obtain ⟨u, hu, x⟩ := h2 s i ho; exact ⟨u, .inr hu, x⟩⟩
  | dict ks vs =>
    simp only [alike] at h
    obtain ⟨ks', vs', ps, rfl, hl, hp, hk, h⟩ := h
    simp only [wf] at hw
    obtain ⟨⟨_, names, hs, _⟩, hw⟩ := hw
    obtain ⟨h1, h2⟩ := alikes_mem' vs (ps.map Prod.snd) hw h
    have hsub : ∀ u, u ∈ subss (ps.map Prod.snd) → u ∈ subss vs' := by
      intro u hu
      obtain ⟨x, hx, hu⟩ := mem_subss.1 hu
      obtain ⟨e, he, rfl⟩ := List.mem_map.1 hx
      exact mem_subss.2 ⟨_, (List.of_mem_zip (hp.mem_iff.1 he)).2, hu⟩
    have hstr : ∀ u, u ∈ subss ks → ∃ n, u = .str n := by
      intro u hu
      rw [strings_eq hs] at hu
      obtain ⟨x, hx, hu⟩ := mem_subss.1 hu
      obtain ⟨n, _, rfl⟩ := List.mem_map.1 hx
      exact ⟨n, by simpa [V.subs] using hu⟩
    simp only [V.subs, List.mem_cons, reduceCtorEq, false_or, List.mem_append]
    refine ⟨fun o ho => ?_, fun s i ho => ?_⟩
    · rcases ho with ho | ho
      · obtain ⟨n, e⟩ := hstr _ ho; cases e
      · obtain ⟨u, hu, x⟩ := h1 o ho; exact ⟨u, .inr (.inr (hsub u hu)), x⟩
    · rcases ho with ho | ho
      · obtain ⟨n, e⟩ := hstr _ ho; cases e
      · obtain ⟨u, hu, x⟩ := h2 s i ho; exact ⟨u, .inr (.inr (hsub u hu)), x⟩
termination_by structural v
theorem alikes_mem' (l l' : List V) (hw : wfs l) (h : alikes L G l l') :
    (∀ o, V.ref o ∈ subss l → ∃ u ∈ subss l', L o u) ∧ ∀ s i, V.link s i ∈ subss l → ∃ u ∈ subss l', G s i u := by
  cases l with
  | nil => exact ⟨fun o ho => by simp [subss] at ho, fun s i ho => by simp [subss] at ho⟩
  | cons v vs =>
    simp only [alikes] at h
    obtain ⟨w, ws, rfl, ha, h⟩ := h
    simp only [wfs] at hw
    obtain ⟨a1, a2⟩ := alike_mem v w hw.1 ha
    obtain ⟨b1, b2⟩ := alikes_mem' vs ws hw.2 h
    simp only [subss, List.mem_append]
    refine ⟨fun o ho => ?_, fun s i ho => ?_⟩
    · rcases ho with ho | ho
      · obtain ⟨u, hu, x⟩ := a1 o ho; exact ⟨u, .inl hu, x⟩
      · obtain ⟨u, hu, x⟩ := b1 o ho; exact ⟨u, .inr hu, x⟩
    · rcases ho with ho | ho
      · obtain ⟨u, hu, x⟩ := a2 s i ho; exact ⟨u, .inl hu, x⟩
      · obtain ⟨u, hu, x⟩ := b2 s i ho; exact ⟨u, .inr hu, x⟩
termination_by structural l
end

theorem alikes_length : ∀ {l l' : List V}, alikes L G l l' → l'.length = l.length
  | [], l', h => by simp only [alikes] at h; rw [h]
  | v :: vs, l', h => by
    simp only [alikes] at h
    obtain ⟨w, ws, rfl, _, h⟩ := h
    simp [alikes_length h]

/-- the order of the entries of a dictionary does not matter -/
theorem nf_dict_perm {ks ks' vs' : List V} {names : List String} {ps : List (V × V)} (hs : strings ks = some names) (hnd : names.Nodup) (hl : ks'.length = vs'.length)
    (hp : ps.Perm (ks'.zip vs')) (hk : ps.map Prod.fst = ks) : nf (.dict ks (ps.map Prod.snd)) = nf (.dict ks' vs') := by
  have hks' : ∃ names', strings ks' = some names' := by
    have : ∀ k ∈ ks', ∃ n, k = V.str n := by
      intro k hk'
      have : k ∈ (ks'.zip vs').map Prod.fst := by rw [List.map_fst_zip (by omega)]; exact hk'
      rw [← (hp.map Prod.fst).mem_iff, hk, strings_eq hs] at this
      obtain ⟨n, _, rfl⟩ := List.mem_map.1 this
      exact ⟨n, rfl⟩
    have gen : ∀ l : List V, (∀ k ∈ l, ∃ n, k = V.str n) → ∃ ns, l = List.map V.str ns := by
      intro l
      induction l with
      | nil => intro _; exact ⟨[], rfl⟩
      | cons a l ih =>
        intro h
        obtain ⟨n, rfl⟩ := h a (by simp)
        obtain ⟨ns, e⟩ := ih (fun k hk => h k (by simp [hk]))
        exact ⟨n :: ns, by rw [e]; rfl⟩
    obtain ⟨ns, e⟩ := gen ks' this
    exact ⟨ns, by rw [e]; exact strings_str ns⟩
  obtain ⟨names', hs'⟩ := hks'
  rw [nf_dict hs, nf_dict hs']
  congr 1
  have el : names'.length = vs'.length := by rw [← hl, strings_eq hs']; simp
  have hz : ps = (names.zip (ps.map Prod.snd)).map (fun e => (V.str e.1, e.2)) := by
    have h1 : ps.map Prod.fst = names.map V.str := by rw [hk]; exact strings_eq hs
    conv => lhs; rw [List.zip_of_prod h1 rfl, List.zip_map_left]
    rfl
  have hp' : ((names.zip (ps.map Prod.snd)).map (fun e : String × V => (V.str e.1, e.2))).Perm ((names'.zip vs').map (fun e : String × V => (V.str e.1, e.2))) := by
    rw [← hz]
    have : (names'.zip vs').map (fun e : String × V => (V.str e.1, e.2)) = ks'.zip vs' := by
      rw [strings_eq hs', List.zip_map_left]; rfl
    rw [this]
    exact hp
  have hp2 := hp'.map (fun e : V × V => ((match e.1 with | .str n => n | _ => ""), e.2))
  rw [List.map_map, List.map_map] at hp2
  have hid : (fun e : V × V => ((match e.1 with | .str n => n | _ => ""), e.2)) ∘ (fun e : String × V => (V.str e.1, e.2)) = id := rfl
  rw [hid, List.map_id, List.map_id] at hp2
  rw [← onSnd_zip, ← onSnd_zip]
  refine sortFields_perm_eq _ _ (hp2.map _) ?_
  rw [onSnd_fst, List.map_fst_zip]
  · exact hnd
  · have := congrArg List.length (hk.trans (strings_eq hs))
    simp at this ⊢
    omega

section
variable {f : Nat → V} {g : String → String → V}
mutual
theorem nf_alike (v w : V) (hv : wf v) (h : alike (fun o w => w = f o) (fun s i w => w = g s i) v w) (tv : noTuple v) : nf w = nf (tr f g v) := by
  cases v with
  | none => simp only [alike] at h; subst h; simp [tr]
  | str b => simp only [alike] at h; subst h; simp [tr]
  | bool b => simp only [alike] at h; rw [tr_scalar _ _ rfl, nf_num.2 h, nf_num.2 rfl]
  | int b => simp only [alike] at h; rw [tr_scalar _ _ rfl, nf_num.2 h, nf_num.2 rfl]
  | float b => simp only [alike] at h; rw [tr_scalar _ _ rfl, nf_num.2 h, nf_num.2 rfl]
  | link t j => simp only [alike] at h; subst h; simp [tr]
  | ref p => simp only [alike] at h; subst h; simp [tr]
  | tuple l => simp [noTuple] at tv
  | list l =>
    simp only [alike] at h
    obtain ⟨l', rfl, h⟩ := h
    simp only [wf, noTuple] at hv tv
    simp only [tr, trs_eq]
    rw [nf_list, nf_list, nfs_alike l l' hv h tv]
  | obj t ns l =>
    simp only [alike] at h
    obtain ⟨l', rfl, h⟩ := h
    simp only [wf, noTuple] at hv tv
    simp only [tr, trs_eq]
    rw [nf_obj, nf_obj, nfs_alike l l' hv.2 h tv]
  | dict ks vs =>
    simp only [alike] at h
    obtain ⟨ks', vs', ps, rfl, hl, hp, hk, h⟩ := h
    simp only [wf, noTuple] at hv tv
    obtain ⟨⟨_, names, hs, hnd, _⟩, hv⟩ := hv
    simp only [tr, trs_eq]
    rw [nf_sortDict hs, ← nf_dict_perm hs hnd hl hp hk, nf_dict hs, nfs_alike vs _ hv h tv]
termination_by structural v
theorem nfs_alike (l l' : List V) (hv : wfs l) (h : alikes (fun o w => w = f o) (fun s i w => w = g s i) l l') (tv : noTuples l) :
    l'.map nf = (l.map (tr f g)).map nf := by
  cases l with
  | nil => simp only [alikes] at h; simp [h]
  | cons v vs =>
    simp only [alikes] at h
    obtain ⟨w, ws, rfl, ha, h⟩ := h
    simp only [wfs, noTuples] at hv tv
    simp only [List.map_cons]
    rw [nf_alike v w hv.1 ha tv.1, nfs_alike vs ws hv.2 h tv.2]
termination_by structural l
end
end

end

/-! ## Containers of copies -/

section
variable {env : Env} {mem : Mem} {base : Nat} {ψ : Nat → Nat}

theorem Good.nf {v v' u : V} (h : Good env mem base ψ v u) (e : nf v = nf v') : Good env mem base ψ v' u :=
  ⟨h.img.trans e, h.wf, h.noTuple, h.ok, h.refs⟩

/-- pairwise copies -/
def Goods (env : Env) (mem : Mem) (base : Nat) (ψ : Nat → Nat) (vs us : List V) : Prop :=
  us.length = vs.length ∧ ∀ i (h1 : i < vs.length) (h2 : i < us.length), Good env mem base ψ vs[i] us[i]

theorem Goods.each {vs us : List V} (h : Goods env mem base ψ vs us) : ∀ u ∈ us, ∃ v, Good env mem base ψ v u := by
  intro u hu
  obtain ⟨i, hi, rfl⟩ := List.getElem_of_mem hu
  exact ⟨_, h.2 i (by rw [← h.1]; exact hi) hi⟩

theorem Goods.img {vs us : List V} (h : Goods env mem base ψ vs us) : (us.map (via ψ)).map nf = vs.map nf := by
  apply List.ext_getElem
  · simp [h.1]
  · intro i i1 i2
    simp only [List.length_map] at i1 i2
    have := (h.2 i i2 i1).img
    unfold Img at this
    simpa using this

theorem Goods.list {vs us : List V} (h : Goods env mem base ψ vs us) : Good env mem base ψ (.list vs) (.list us) := by
  refine ⟨?_, ?_, ?_, ?_, ?_⟩
  · unfold Img
    have := h.img
    unfold via at this ⊢
    simp only [tr]
    rw [trs_eq, nf_list, nf_list, this]
  · simp only [wf]; rw [wfs_iff]; exact fun w hm => by obtain ⟨_, hg⟩ := h.each w hm; exact hg.wf
  · simp only [noTuple]; rw [noTuples_iff]; exact fun w hm => by obtain ⟨_, hg⟩ := h.each w hm; exact hg.noTuple
  · simp only [okV]; rw [okVs_iff]; exact fun w hm => by obtain ⟨_, hg⟩ := h.each w hm; exact hg.ok
  · intro p hp
    simp only [V.subs, List.mem_cons, reduceCtorEq, false_or] at hp
    obtain ⟨w, hm, hp⟩ := mem_subss.1 hp
    obtain ⟨_, hg⟩ := h.each w hm
    exact hg.refs p hp

theorem Goods.dict {ks vs us : List V} {names : List String} (hl : ks.length = vs.length) (hs : strings ks = some names) (hnd : names.Nodup) (hty : "type" ∉ names)
    (h : Goods env mem base ψ vs us) : Good env mem base ψ (.dict ks vs) (.dict ks us) := by
  refine ⟨?_, ?_, ?_, ?_, ?_⟩
  · unfold Img
    have := h.img
    unfold via at this ⊢
    simp only [tr]
    rw [trs_eq, nf_sortDict hs, nf_dict hs, this]
  · simp only [wf]
    refine ⟨⟨by rw [h.1]; exact hl, names, hs, hnd, hty⟩, ?_⟩
    rw [wfs_iff]; exact fun w hm => by obtain ⟨_, hg⟩ := h.each w hm; exact hg.wf
  · simp only [noTuple]; rw [noTuples_iff]; exact fun w hm => by obtain ⟨_, hg⟩ := h.each w hm; exact hg.noTuple
  · simp only [okV]; rw [okVs_iff]; exact fun w hm => by obtain ⟨_, hg⟩ := h.each w hm; exact hg.ok
  · intro p hp
    simp only [V.subs, List.mem_cons, reduceCtorEq, false_or, List.mem_append] at hp
    rcases hp with hp | hp
    · rw [strings_eq hs] at hp
      obtain ⟨w, hw, hp⟩ := mem_subss.1 hp
      obtain ⟨n, _, rfl⟩ := List.mem_map.1 hw
      simp [V.subs] at hp
    · obtain ⟨w, hm, hp⟩ := mem_subss.1 hp
      obtain ⟨_, hg⟩ := h.each w hm
      exact hg.refs p hp

end

end Verif.Json

namespace Verif.Substitute
open Verif.Py Verif.Value Verif.Schema Verif.Json

/-! ## What a value and the entities in it mean -/

/-- what the index says of a link -/
def meaning (index : Dict (String × String) Nat) (s i : String) : V := match Dict.get? index (s, i) with
  | some o => .ref o
  | none => .link s i

/-- the entity `o` occurs in `v`, or is what a link in `v` means -/
def Means (index : Dict (String × String) Nat) (v : V) (o : Nat) : Prop := V.ref o ∈ v.subs ∨ ∃ s i, V.link s i ∈ v.subs ∧ Dict.get? index (s, i) = some o

/-- `w` is `v` with links replaced by what they mean -/
abbrev Res (index : Dict (String × String) Nat) : V → V → Prop := alike (fun o w => w = .ref o) (fun s i w => w = meaning index s i)

/-- the same for lists -/
abbrev Ress (index : Dict (String × String) Nat) : List V → List V → Prop := alikes (fun o w => w = .ref o) (fun s i w => w = meaning index s i)

/-- `M` is `m` with the links replaced by what they mean, for the entities in `S`; constructors accept the result. Entities in `S` mean entities of smaller
rank. -/
structure Resolved (env : Env) (index : Dict (String × String) Nat) (m M : Mem) (S : Nat → Prop) (rank : Nat → Nat) : Prop where
  before : WellTyped env m
  typed : WellTyped env M
  same : ∀ o, S o → ∃ x y, m[o]? = some x ∧ M[o]? = some y ∧ y.cls = x.cls ∧ (asDict M y).map Prod.fst = (asDict m x).map Prod.fst ∧
    Ress index ((asDict m x).map Prod.snd) ((asDict M y).map Prod.snd) ∧
    (∀ e ∈ asDict M y, Json.wf e.2 ∧ Json.noTuple e.2) ∧
    ∀ e ∈ asDict m x, Json.wf e.2 ∧ Json.noTuple e.2 ∧ ∀ q, Means index e.2 q → S q ∧ rank q < rank o

theorem pointerLike_meaning (index : Dict (String × String) Nat) (s i : String) : pointerLike (meaning index s i) := by
  unfold meaning
  split <;> trivial

section
variable {env : Env} {index : Dict (String × String) Nat} {m M : Mem} {S : Nat → Prop} {rank : Nat → Nat}

/-- an entry of `visited` that is what it should be -/
def Right (env : Env) (index : Dict (String × String) Nat) (mem : Mem) (base : Nat) (ψ : Nat → Nat) (k w : V) : Prop :=
  (∃ q, k = .float q ∧ num w = some q) ∨ (∃ o, k = .ref o ∧ Good env mem base ψ (.ref o) w) ∨
    ∃ s i, k = .tuple [.str s, .str i] ∧ Good env mem base ψ (meaning index s i) w

theorem Right.ext {mem mem' : Mem} {base : Nat} {ψ ψ' : Nat → Nat} {k w : V} (h : Right env index mem base ψ k w) (e : Ext ψ mem ψ' mem') :
    Right env index mem' base ψ' k w := by
  rcases h with h | ⟨o, h1, h2⟩ | ⟨s, i, h1, h2⟩
  · exact .inl h
  · exact .inr (.inl ⟨o, h1, h2.ext e⟩)
  · exact .inr (.inr ⟨s, i, h1, h2.ext e⟩)

/-- `visited` is right, except for links to entities of rank `r` or more, which are being expanded -/
def VisR (env : Env) (index : Dict (String × String) Nat) (rank : Nat → Nat) (base : Nat) (r : Nat) (st : SubSt) (ψ : Nat → Nat) : Prop :=
  ∀ k w, Dict.get? st.visited k = some w → Right env index st.mem base ψ k w ∨
    ∃ s i o, k = .tuple [.str s, .str i] ∧ Dict.get? index (s, i) = some o ∧ r ≤ rank o

/-- what is new in `visited` is right -/
def News (env : Env) (index : Dict (String × String) Nat) (base : Nat) (st st' : SubSt) (ψ' : Nat → Nat) : Prop :=
  ∀ k w, Dict.get? st'.visited k = some w → Dict.get? st.visited k = some w ∨ Right env index st'.mem base ψ' k w

theorem VisR.step {base r : Nat} {st st' : SubSt} {ψ ψ' : Nat → Nat} (h : VisR env index rank base r st ψ) (e : Ext ψ st.mem ψ' st'.mem)
    (hn : News env index base st st' ψ') : VisR env index rank base r st' ψ' := by
  intro k w hk
  rcases hn k w hk with hk | hk
  · rcases h k w hk with h | h
    · exact .inl (h.ext e)
    · exact .inr h
  · exact .inl hk

theorem VisR.mono {base r r' : Nat} {st : SubSt} {ψ : Nat → Nat} (h : VisR env index rank base r st ψ) (hr : r' ≤ r) : VisR env index rank base r' st ψ := by
  intro k w hk
  rcases h k w hk with h | ⟨s, i, o, h1, h2, h3⟩
  · exact .inl h
  · exact .inr ⟨s, i, o, h1, h2, by omega⟩

theorem News.refl (base : Nat) (st : SubSt) (ψ : Nat → Nat) : News env index base st st ψ := fun _ _ h => .inl h

theorem News.trans {base : Nat} {st st' st'' : SubSt} {ψ' ψ'' : Nat → Nat} (h : News env index base st st' ψ') (e : Ext ψ' st'.mem ψ'' st''.mem)
    (h' : News env index base st' st'' ψ'') : News env index base st st'' ψ'' := by
  intro k w hk
  rcases h' k w hk with hk | hk
  · rcases h k w hk with hk | hk
    · exact .inl hk
    · exact .inr (hk.ext e)
  · exact .inr hk

theorem remember_get {v w k u : V} {st : SubSt} {key : V} (hk : v.hash = .key key) (h : Dict.get? (remember v w st).visited k = some u) :
    (k = key ∧ u = w) ∨ (k ≠ key ∧ Dict.get? st.visited k = some u) := by
  simp only [remember, hk] at h
  rw [Dict.get?_set] at h
  split at h
  · rename_i e; cases h; exact .inl ⟨e.symm, rfl⟩
  · rename_i e; exact .inr ⟨fun e' => e e'.symm, h⟩

/-- the result of `_substitute` on a value that means `v` -/
def Done (env : Env) (index : Dict (String × String) Nat) (m M : Mem) (S : Nat → Prop) (st : SubSt) (ψ : Nat → Nat) (v w : V) (st' : SubSt) (ψ' : Nat → Nat) : Prop :=
  Ext ψ st.mem ψ' st'.mem ∧ Copies env M S m ψ' st'.mem ∧ Good env st'.mem m.length ψ' v w ∧ News env index m.length st st' ψ'

/-- what is assumed of expanding entities of rank less than `r` -/
def Expands (env : Env) (index : Dict (String × String) Nat) (m M : Mem) (S : Nat → Prop) (rank : Nat → Nat) (expand : Nat → SubSt → Except PyErr (V × SubSt)) (r : Nat) : Prop :=
  ∀ o, S o → rank o < r → ∀ st ψ, Copies env M S m ψ st.mem → VisR env index rank m.length (rank o) st ψ →
    ∃ w st' ψ', expand o st = .ok (w, st') ∧ Done env index m M S st ψ (.ref o) w st' ψ'

/-- the resolved form `v'` of `v` is acceptable, and what `v` means is in `S` and of rank less than `r` -/
structure Takes (env : Env) (index : Dict (String × String) Nat) (M : Mem) (S : Nat → Prop) (rank : Nat → Nat) (r : Nat) (v v' : V) : Prop where
  wf : Json.wf v
  noTuple : Json.noTuple v
  wf' : Json.wf v'
  noTuple' : Json.noTuple v'
  ok : okV env M v'
  same : Res index v v'
  means : ∀ q, Means index v q → S q ∧ rank q < r

section
variable {expand : Nat → SubSt → Except PyErr (V × SubSt)} {r : Nat}

theorem obj_number (v v' : V) (q : Rat) (hq : num v = some q) (hq' : num v' = some q) (st : SubSt) (ψ : Nat → Nat) (hC : Copies env M S m ψ st.mem)
    (hV : VisR env index rank m.length r st ψ) :
    ∃ w st' ψ', subNumber v st = .ok (w, st') ∧ Done env index m M S st ψ v' w st' ψ' := by
  have hk : v.hash = .key (.float q) := by
    cases v <;> simp [num] at hq <;> simp [V.hash, V.norm, hq]
  have out : ∀ w, num w = some q → Good env st.mem m.length ψ v' w := by
    intro w hw
    have hcl := leaf_clean (env := env) (m := st.mem) (v := w) (.inl (num_scalar hw))
    refine ⟨?_, hcl.wf, hcl.noTuple, hcl.ok, fun p hp => absurd hp (noRef_subs _ hcl.wf hcl.noRef p)⟩
    unfold Img
    rw [noRef_via ψ (num_scalar hw), nf_num.2 hw, nf_num.2 hq']
  unfold subNumber
  simp only [recall, hk]
  split
  · rename_i w hw
    refine ⟨w, st, ψ, rfl, Ext.refl _ _, hC, ?_, News.refl _ _ _⟩
    rcases hV _ _ hw with (⟨q', e, hq''⟩ | ⟨o, e, _⟩ | ⟨s, i, e, _⟩) | ⟨s, i, o, e, _⟩
    · cases e; exact out w hq''
    · cases e
    · cases e
    · cases e
  · refine ⟨v, _, ψ, rfl, ?_, ?_, ?_, ?_⟩
    · rw [remember_mem]; exact Ext.refl _ _
    · rw [remember_mem]; exact hC
    · rw [remember_mem]; exact out v hq
    · intro k w h
      rcases remember_get hk h with ⟨rfl, rfl⟩ | ⟨_, h⟩
      · exact .inr (.inl ⟨q, rfl, hq⟩)
      · exact .inl h

theorem obj_ref (o : Nat) (hX : Expands env index m M S rank expand r) (hS : S o) (hr : rank o < r) (st : SubSt) (ψ : Nat → Nat) (hC : Copies env M S m ψ st.mem)
    (hV : VisR env index rank m.length r st ψ) :
    ∃ w st' ψ', subLeaf (objectRepl index) expand (.ref o) st = .ok (w, st') ∧ Done env index m M S st ψ (.ref o) w st' ψ' := by
  have hk : (V.ref o).hash = .key (.ref o) := rfl
  unfold subLeaf
  simp only [recall, hk]
  split
  · rename_i w hw
    refine ⟨w, st, ψ, rfl, Ext.refl _ _, hC, ?_, News.refl _ _ _⟩
    rcases hV _ _ hw with (⟨q', e, hq'⟩ | ⟨o', e, h⟩ | ⟨s, i, e, _⟩) | ⟨s, i, o, e, _⟩
    · cases e
    · cases e; exact h
    · cases e
    · cases e
  · obtain ⟨w, st', ψ', e, h1, h2, h3, h4⟩ := hX o hS hr st ψ hC (hV.mono (by omega))
    simp only [objectRepl, through, e]
    refine ⟨w, _, ψ', rfl, ?_, ?_, ?_, ?_⟩
    · rw [remember_mem]; exact h1
    · rw [remember_mem]; exact h2
    · rw [remember_mem]; exact h3
    · intro k u h
      rw [remember_mem]
      rcases remember_get hk h with ⟨rfl, rfl⟩ | ⟨_, h⟩
      · exact .inr (.inr (.inl ⟨o, rfl, h3⟩))
      · exact h4 k u h

theorem obj_link (s i : String) (hX : Expands env index m M S rank expand r) (hS : ∀ o, Dict.get? index (s, i) = some o → S o ∧ rank o < r) (st : SubSt)
    (ψ : Nat → Nat) (hC : Copies env M S m ψ st.mem) (hV : VisR env index rank m.length r st ψ) :
    ∃ w st' ψ', subLeaf (objectRepl index) expand (.link s i) st = .ok (w, st') ∧ Done env index m M S st ψ (meaning index s i) w st' ψ' := by
  have hk : (V.link s i).hash = .key (.tuple [.str s, .str i]) := rfl
  unfold subLeaf
  simp only [recall, hk]
  split
  · rename_i w hw
    refine ⟨w, st, ψ, rfl, Ext.refl _ _, hC, ?_, News.refl _ _ _⟩
    rcases hV _ _ hw with (⟨q', e, hq'⟩ | ⟨o', e, h⟩ | ⟨s, i, e, h⟩) | ⟨s, i, o, e, h1, h2⟩
    · cases e
    · cases e
    · cases e; exact h
    · cases e
      have := (hS o h1).2
      omega
  · simp only [objectRepl]
    cases hi : Dict.get? index (s, i) with
    | none =>
      have hm : meaning index s i = .link s i := by unfold meaning; rw [hi]
      have hg : Good env st.mem m.length ψ (meaning index s i) (.link s i) := by
        have hcl := leaf_clean (env := env) (m := st.mem) (v := .link s i) (.inr rfl)
        rw [hm]
        exact ⟨by simp [Img, via, tr], hcl.wf, hcl.noTuple, hcl.ok, fun p hp => absurd hp (noRef_subs _ hcl.wf hcl.noRef p)⟩
      simp only [through]
      refine ⟨.link s i, _, ψ, rfl, ?_, ?_, ?_, ?_⟩
      · rw [remember_mem, remember_mem]; exact Ext.refl _ _
      · rw [remember_mem, remember_mem]; exact hC
      · rw [remember_mem, remember_mem]; exact hg
      · intro k u h
        rw [remember_mem, remember_mem]
        rcases remember_get hk h with ⟨rfl, rfl⟩ | ⟨_, h⟩
        · exact .inr (.inr (.inr ⟨s, i, rfl, hg⟩))
        · rcases remember_get hk h with ⟨rfl, rfl⟩ | ⟨_, h⟩
          · exact .inr (.inr (.inr ⟨s, i, rfl, hg⟩))
          · exact .inl h
    | some o =>
      have hm : meaning index s i = .ref o := by unfold meaning; rw [hi]
      obtain ⟨hSo, hr⟩ := hS o hi
      have hV1 : VisR env index rank m.length (rank o) (remember (.link s i) (.ref o) st) ψ := by
        intro k u h
        rw [remember_mem]
        rcases remember_get hk h with ⟨rfl, rfl⟩ | ⟨_, h⟩
        · exact .inr ⟨s, i, o, rfl, hi, Nat.le_refl _⟩
        · exact (hV.mono (Nat.le_of_lt hr)) k u h
      obtain ⟨w, st', ψ', e, h1, h2, h3, h4⟩ := hX o hSo hr _ ψ (by rw [remember_mem]; exact hC) hV1
      simp only [through, e]
      rw [remember_mem] at h1
      refine ⟨w, _, ψ', rfl, ?_, ?_, ?_, ?_⟩
      · rw [remember_mem]; exact h1
      · rw [remember_mem]; exact h2
      · rw [remember_mem, hm]; exact h3
      · intro k u h
        rw [remember_mem]
        rcases remember_get hk h with ⟨rfl, rfl⟩ | ⟨hne, h⟩
        · exact .inr (.inr (.inr ⟨s, i, rfl, by rw [hm]; exact h3⟩))
        · rcases h4 k u h with h | h
          · rcases remember_get hk h with ⟨rfl, _⟩ | ⟨_, h⟩
            · exact absurd rfl hne
            · exact .inl h
          · exact .inr h

/-- an object is built again from what its attributes were replaced by -/
theorem obj_build (t : String) (ns : List String) (vs us : List V) (hw : Json.wf (.obj t ns vs)) (ho : okV env M (.obj t ns vs)) {mem : Mem} {ψ : Nat → Nat}
    (hC : Copies env M S m ψ mem) (hg : Goods env mem m.length ψ vs us) :
    ∃ w mem' ψ', build env mem (mkDict (("type", .str t) :: ns.zip us)) = .ok (w, mem') ∧ Ext ψ mem ψ' mem' ∧ Copies env M S m ψ' mem' ∧
      Good env mem' m.length ψ' (.obj t ns vs) w := by
  have ho' := ho
  have hw' := hw
  simp only [okV] at ho'
  simp only [Json.wf] at hw'
  obtain ⟨⟨c, hc, hns, hlen, _⟩, _⟩ := ho'
  obtain ⟨n1, n2, n3⟩ := table_names t c hc
  have hfst : (ns.zip us).map Prod.fst = ns := List.map_fst_zip (by have := hg.1; omega)
  obtain ⟨d, st, ψ', h1, h2, h3, h4⟩ := build_read hC t (ns.zip us) (by rw [hfst, hns]; exact n1) (by rw [hfst, hns]; exact n2) (by rw [hfst, hns]; exact n3)
    (fun f hf => hg.each _ (List.of_mem_zip (a := f.1) (b := f.2) hf).2)
  obtain ⟨ws, w1, w2⟩ := construct_good h3 t ns vs hw ho c hc d (by
    intro n v hnv
    obtain ⟨i, hi, e⟩ := List.getElem_of_mem hnv
    simp only [List.length_zip] at hi
    rw [List.getElem_zip] at e
    obtain ⟨rfl, rfl⟩ := Prod.mk.inj e
    have hu : i < us.length := by rw [hg.1]; omega
    obtain ⟨u, g1, g2⟩ := h4 (ns[i], us[i]) (by
      have : (ns.zip us)[i]'(by simp; omega) = (ns[i], us[i]) := List.getElem_zip
      rw [← this]; exact List.getElem_mem _)
    exact ⟨u, g1, g2 _ (hg.2 i (by omega) hu)⟩)
  refine ⟨.obj t ns ws, st.mem, ψ', ?_, h2, h3, w2⟩
  rw [h1]
  have : loadAs env false t d st = .ok (.obj t ns ws, st) := by
    unfold loadAs
    rw [if_neg]
    · simp only [hc, w1]
    · intro e
      subst e
      exact table_not_link c hc
  rw [this]

mutual
/-- **`_substitute` of a value**: what it means, with copies of the entities in it -/
theorem sub_objects (hX : Expands env index m M S rank expand r) (v v' : V) (hT : Takes env index M S rank r v v') (st : SubSt) (ψ : Nat → Nat)
    (hC : Copies env M S m ψ st.mem) (hV : VisR env index rank m.length r st ψ) :
    ∃ w st' ψ', sub env (objectRepl index) expand v st = .ok (w, st') ∧ Done env index m M S st ψ v' w st' ψ' := by
  have hsame := hT.same
  cases v with
  | none =>
    simp only [Res, alike] at hsame
    subst hsame
    exact ⟨.none, st, ψ, rfl, Ext.refl _ _, hC, ⟨by simp [Img, via, tr], by simp [Json.wf], by simp [Json.noTuple], by simp [okV], by simp [V.subs]⟩, News.refl _ _ _⟩
  | str s =>
    simp only [Res, alike] at hsame
    subst hsame
    exact ⟨.str s, st, ψ, rfl, Ext.refl _ _, hC, ⟨by simp [Img, via, tr], by simp [Json.wf], by simp [Json.noTuple], by simp [okV], by simp [V.subs]⟩, News.refl _ _ _⟩
  | bool b => simp only [sub]; simp only [Res, alike] at hsame; exact obj_number _ _ _ rfl hsame st ψ hC hV
  | int i => simp only [sub]; simp only [Res, alike] at hsame; exact obj_number _ _ _ rfl hsame st ψ hC hV
  | float q => simp only [sub]; simp only [Res, alike] at hsame; exact obj_number _ _ _ rfl hsame st ψ hC hV
  | link s i =>
    simp only [Res, alike] at hsame
    subst hsame
    simp only [sub]
    exact obj_link s i hX (fun o ho => hT.means o (.inr ⟨s, i, self_mem_subs _, ho⟩)) st ψ hC hV
  | ref o =>
    simp only [Res, alike] at hsame
    subst hsame
    simp only [sub]
    obtain ⟨h1, h2⟩ := hT.means o (.inl (self_mem_subs _))
    exact obj_ref o hX h1 h2 st ψ hC hV
  | tuple l => have := hT.noTuple; simp [Json.noTuple] at this
  | list l =>
    simp only [Res, alike] at hsame
    obtain ⟨vs', rfl, hsame⟩ := hsame
    obtain ⟨h1, h2, h1', h2', h3, _, h4⟩ := hT
    simp only [Json.wf, Json.noTuple, okV] at h1 h2 h3 h1' h2'
    obtain ⟨l', st', ψ', e, x1, x2, x3, x4⟩ := subList_objects hX l vs' h1 h2 h1' h2' h3 hsame (fun q hq => h4 q (by
      rcases hq with hq | ⟨s, i, hq, hi⟩
      · exact .inl (by simp [V.subs, hq])
      · exact .inr ⟨s, i, by simp [V.subs, hq], hi⟩)) st ψ hC hV
    exact ⟨.list l', st', ψ', by simp only [sub, e], x1, x2, x3.list, x4⟩
  | dict ks vs =>
    simp only [Res, alike] at hsame
    obtain ⟨ks', vs', ps, rfl, hl', hp, hk, hsame⟩ := hsame
    obtain ⟨h1, h2, h1', h2', h3, _, h4⟩ := hT
    simp only [Json.wf, Json.noTuple, okV] at h1 h2 h3 h1' h2'
    obtain ⟨⟨hl, names, hs, hnd, hty⟩, h1⟩ := h1
    have hmem : ∀ x ∈ ps.map Prod.snd, x ∈ vs' := by
      intro x hx
      obtain ⟨e, he, rfl⟩ := List.mem_map.1 hx
      exact (List.of_mem_zip (hp.mem_iff.1 he)).2
    have h1'' := h1'.2
    rw [wfs_iff] at h1''
    rw [noTuples_iff] at h2'
    rw [okVs_iff] at h3
    obtain ⟨l', st', ψ', e, x1, x2, x3, x4⟩ := subList_objects hX vs (ps.map Prod.snd) h1 h2 (by rw [wfs_iff]; exact fun x hx => h1'' x (hmem x hx))
      (by rw [noTuples_iff]; exact fun x hx => h2' x (hmem x hx)) (by rw [okVs_iff]; exact fun x hx => h3 x (hmem x hx)) hsame (fun q hq => h4 q (by
      rcases hq with hq | ⟨s, i, hq, hi⟩
      · exact .inl (by simp [V.subs, hq])
      · exact .inr ⟨s, i, by simp [V.subs, hq], hi⟩)) st ψ hC hV
    have hks := sub_strings (env := env) expand (objectRepl index) names st
    rw [← strings_eq hs] at hks
    refine ⟨.dict ks l', st', ψ', by simp only [sub, hks, e], x1, x2, ?_, x4⟩
    exact (x3.dict (by rw [← hk]; simp) hs hnd hty).nf (nf_dict_perm hs hnd hl' hp hk)
  | obj t ns vs =>
    simp only [Res, alike] at hsame
    obtain ⟨vs', rfl, hsame⟩ := hsame
    obtain ⟨h1, h2, h1', h2', h3, _, h4⟩ := hT
    have hw0 := h1'
    have ho0 := h3
    simp only [Json.wf, Json.noTuple, okV] at h1 h2 h3 h1' h2'
    obtain ⟨l', st', ψ', e, x1, x2, x3, x4⟩ := subList_objects hX vs vs' h1.2 h2 h1'.2 h2' h3.2 hsame (fun q hq => h4 q (by
      rcases hq with hq | ⟨s, i, hq, hi⟩
      · exact .inl (by simp [V.subs, hq])
      · exact .inr ⟨s, i, by simp [V.subs, hq], hi⟩)) st ψ hC hV
    obtain ⟨w, mem', ψ2, e2, y1, y2, y3⟩ := obj_build t ns _ l' hw0 ho0 x2 x3
    refine ⟨w, { st' with mem := mem' }, ψ2, by simp only [sub, e, e2], x1.trans y1, y2, y3, ?_⟩
    exact x4.trans (st'' := { st' with mem := mem' }) y1 (fun k w h => .inl h)
termination_by structural v
theorem subList_objects (hX : Expands env index m M S rank expand r) (l lt : List V) (hw : wfs l) (ht : noTuples l) (hw' : wfs lt) (ht' : noTuples lt)
    (ho : okVs env M lt) (hsame : Ress index l lt)
    (hm : ∀ q, (V.ref q ∈ subss l ∨ ∃ s i, V.link s i ∈ subss l ∧ Dict.get? index (s, i) = some q) → S q ∧ rank q < r)
    (st : SubSt) (ψ : Nat → Nat) (hC : Copies env M S m ψ st.mem) (hV : VisR env index rank m.length r st ψ) :
    ∃ l' st' ψ', subList env (objectRepl index) expand l st = .ok (l', st') ∧ Ext ψ st.mem ψ' st'.mem ∧ Copies env M S m ψ' st'.mem ∧
      Goods env st'.mem m.length ψ' lt l' ∧ News env index m.length st st' ψ' := by
  cases l with
  | nil =>
    simp only [Ress, alikes] at hsame
    subst hsame
    exact ⟨[], st, ψ, rfl, Ext.refl _ _, hC, ⟨rfl, fun i h => absurd h (by simp)⟩, News.refl _ _ _⟩
  | cons v vs =>
    simp only [Ress, alikes] at hsame
    obtain ⟨v', vs', rfl, hs1, hs2⟩ := hsame
    simp only [wfs, noTuples, okVs] at hw ht ho hw' ht'
    obtain ⟨w, st1, ψ1, e1, a1, a2, a3, a4⟩ := sub_objects hX v v' ⟨hw.1, ht.1, hw'.1, ht'.1, ho.1, hs1, fun q hq => hm q (by
      rcases hq with hq | ⟨s, i, hq, hi⟩
      · exact .inl (by simp [subss, hq])
      · exact .inr ⟨s, i, by simp [subss, hq], hi⟩)⟩ st ψ hC hV
    obtain ⟨ws, st2, ψ2, e2, b1, b2, b3, b4⟩ := subList_objects hX vs vs' hw.2 ht.2 hw'.2 ht'.2 ho.2 hs2 (fun q hq => hm q (by
      rcases hq with hq | ⟨s, i, hq, hi⟩
      · exact .inl (by simp [subss, hq])
      · exact .inr ⟨s, i, by simp [subss, hq], hi⟩)) st1 ψ1 a2 (hV.step a1 a4)
    refine ⟨w :: ws, st2, ψ2, by simp only [subList, e1, e2], a1.trans b1, b2, ⟨by simp [b3.1], ?_⟩, a4.trans b1 b4⟩
    intro i h1 h2
    cases i with
    | zero => exact a3.ext b1
    | succ i => exact b3.2 i (by simpa using h1) (by simpa using h2)
termination_by structural l
end

end

/-- **`_substitute` of an entity**: a copy of the resolved entity -/
theorem expand_objects (hR : Resolved env index m M S rank) : ∀ k, Expands env index m M S rank (expandE env (objectRepl index) k) k
  | 0 => fun _ _ h => absurd h (Nat.not_lt_zero _)
  | k + 1 => by
    intro o hS hk st ψ hC hV
    obtain ⟨x, y, hx, hy, hcls, hnames, hsame, hwy, hall⟩ := hR.same o hS
    have hxl : o < m.length := (List.getElem?_eq_some_iff.1 hx).1
    have hsx : st.mem[o]? = some x := by rw [hC.old o hxl]; exact hx
    have hA : asDict st.mem x = asDict m x := asDict_kept hR.before (fun p z hz => ⟨z, by
      rw [hC.old p (List.getElem?_eq_some_iff.1 hz).1]; exact hz, .inl rfl⟩) hx (.inl rfl)
    obtain ⟨fs, e, n1, n2, n3⟩ := asDict_names hR.before hx
    obtain ⟨gs, eg, _⟩ := asDict_names hR.typed hy
    have hX : Expands env index m M S rank (expandE env (objectRepl index) k) (rank o) := fun q hq hr => expand_objects hR k q hq (by omega)
    have hmem : ∀ v ∈ (asDict m x).map Prod.snd, ∃ f ∈ asDict m x, f.2 = v := fun v hv => by
      obtain ⟨f, hf, rfl⟩ := List.mem_map.1 hv
      exact ⟨f, hf, rfl⟩
    have hmem' : ∀ v ∈ (asDict M y).map Prod.snd, ∃ f ∈ asDict M y, f.2 = v := fun v hv => by
      obtain ⟨f, hf, rfl⟩ := List.mem_map.1 hv
      exact ⟨f, hf, rfl⟩
    obtain ⟨l', st1, ψ1, e1, a1, a2, a3, a4⟩ := subList_objects hX ((asDict m x).map Prod.snd) ((asDict M y).map Prod.snd)
      (by rw [wfs_iff]; intro v hv; obtain ⟨f, hf, rfl⟩ := hmem v hv; exact (hall f hf).1)
      (by rw [noTuples_iff]; intro v hv; obtain ⟨f, hf, rfl⟩ := hmem v hv; exact (hall f hf).2.1)
      (by rw [wfs_iff]; intro v hv; obtain ⟨f, hf, rfl⟩ := hmem' v hv; exact (hwy f hf).1)
      (by rw [noTuples_iff]; intro v hv; obtain ⟨f, hf, rfl⟩ := hmem' v hv; exact (hwy f hf).2)
      (by rw [okVs_iff]; intro v hv; obtain ⟨f, hf, rfl⟩ := hmem' v hv; exact asDict_ok hR.typed hy f hf)
      hsame
      (by
        intro q hq
        rcases hq with hq | ⟨s, i, hq, hi⟩
        · obtain ⟨v, hv, hq⟩ := mem_subss.1 hq
          obtain ⟨f, hf, rfl⟩ := hmem v hv
          exact (hall f hf).2.2 q (.inl hq)
        · obtain ⟨v, hv, hq⟩ := mem_subss.1 hq
          obtain ⟨f, hf, rfl⟩ := hmem v hv
          exact (hall f hf).2.2 q (.inr ⟨s, i, hq, hi⟩)) st ψ hC hV
    have hgl : gs.map Prod.fst = fs.map Prod.fst := by
      have := hnames
      rw [e, eg] at this
      simpa using this
    have hgl' : gs.length = fs.length := by simpa using congrArg List.length hgl
    have hlen : l'.length = fs.length + 1 := by rw [a3.1, eg]; simp [hgl']
    obtain ⟨u0, us, rfl⟩ : ∃ u0 us, l' = u0 :: us := by
      cases l' with
      | nil => simp at hlen
      | cons a b => exact ⟨a, b, rfl⟩
    have hlen' : us.length = fs.length := by simpa using hlen
    have hu0 : u0 = .str (Equal.typ x.cls) := by
      have := a3.2 0 (by rw [eg]; simp) (by simp)
      simp only [eg, List.map_cons, List.getElem_cons_zero] at this
      rw [← hcls]
      exact nameLike_img (.inr rfl) this.img
    subst hu0
    have hus : ∀ i (h1 : i < gs.length) (h2 : i < us.length), Good env st1.mem m.length ψ1 gs[i].2 us[i] := by
      intro i h1 h2
      have := a3.2 (i + 1) (by rw [eg]; simpa using h1) (by simpa using h2)
      simpa [eg] using this
    have hfst : ((fs.map Prod.fst).zip us).map Prod.fst = fs.map Prod.fst := List.map_fst_zip (by simp [hlen'])
    obtain ⟨d, st2, ψ2, h1, h2, h3, h4⟩ := build_read a2 (Equal.typ x.cls) ((fs.map Prod.fst).zip us) (by rw [hfst]; exact n1) (by rw [hfst]; exact n2)
      (by rw [hfst]; exact n3) (by
        intro f hf
        obtain ⟨i, hi, e'⟩ := List.getElem_of_mem (List.of_mem_zip (a := f.1) (b := f.2) hf).2
        rw [← e']
        exact ⟨_, hus i (by omega) hi⟩)
    obtain ⟨mem', f1, f2, f3, f4⟩ := entity_step h3 hR.typed hy hS (fun f hf => (hwy f hf).1) d (by
      intro g hg hty
      rw [eg] at hg
      rcases List.mem_cons.1 hg with rfl | hg
      · exact absurd rfl hty
      · obtain ⟨i, hi, rfl⟩ := List.getElem_of_mem hg
        have hname : gs[i].1 = fs[i].1 := by
          have : (gs.map Prod.fst)[i]'(by simpa using hi) = (fs.map Prod.fst)[i]'(by simp; omega) := by simp only [hgl]
          simpa using this
        obtain ⟨u, g1, g2⟩ := h4 (fs[i].1, us[i]'(by omega)) (by
          have : ((fs.map Prod.fst).zip us)[i]'(by simp; omega) = (fs[i].1, us[i]'(by omega)) := by rw [List.getElem_zip]; simp
          rw [← this]; exact List.getElem_mem _)
        exact ⟨u, by rw [hname]; exact g1, g2 _ (hus i hi (by omega))⟩)
    obtain ⟨t1, t2, t3⟩ := typ_entity x.cls
    refine ⟨.ref st2.mem.length, { st1 with mem := mem' }, upd ψ2 st2.mem.length o, ?_, a1.trans (h2.trans f4), f3, ?_, ?_⟩
    · have e2 : build env st1.mem (mkDict (((asDict m x).map Prod.fst).zip (V.str (Equal.typ x.cls) :: us))) = .ok (.ref st2.mem.length, mem') := by
        rw [e]
        simp only [List.map_cons, List.zip_cons_cons]
        rw [h1]
        unfold loadAs
        rw [if_neg t1]
        rw [hcls] at f1
        simp only [t2, t3, f1]
      simp only [expandE, hsx, hA, e1, e2]
    · refine ⟨by simp [Img, via, tr, upd], by simp [Json.wf], by simp [Json.noTuple], by simp [okV], ?_⟩
      intro p hp
      simp only [V.subs, List.mem_cons, V.ref.injEq, List.not_mem_nil, or_false] at hp
      subst hp
      exact ⟨h3.len, by simp [f2]⟩
    · exact a4.trans (st'' := { st1 with mem := mem' }) (h2.trans f4) (fun k w h => .inl h)

/-- **`substitute_objects`** gives a copy of what the value means -/
theorem substitute_objects_copy (hR : Resolved env index m M S rank) {v v' : V} {k : Nat} (hT : Takes env index M S rank k v v') :
    ∃ w m' ψ, substituteObjects env index k m v = .ok (w, m') ∧ Copies env M S m ψ m' ∧ Good env m' m.length ψ v' w := by
  obtain ⟨w, st', ψ, e, h1, h2, h3, h4⟩ := sub_objects (expand_objects hR k) v v' hT { visited := [], mem := m } (fun p => p)
    ⟨hR.before, Nat.le_refl _, fun _ _ => rfl, fun p z hp hz => absurd (List.getElem?_eq_some_iff.1 hz).1 (by simp; omega)⟩
    (fun k w h => by simp [Dict.get?_nil] at h)
  exact ⟨w, st'.mem, ψ, by simp only [substituteObjects, substitute, e], h2, h3⟩

end

/-! ## C35: the specification -/

/-- `w` is what the link `s`, `i` stands for: a copy of the entity that the index gives for it or, if there is none, the same link -/
def StandsFor (index : Dict (String × String) Nat) (ψ : Nat → Nat) (s i : String) (w : V) : Prop := match Dict.get? index (s, i) with
  | some o => CopyOf ψ o w
  | none => w = .link s i

/-- From number `n` on, `m'` consists of copies of entities of `m`: `ψ` says of which. A copy has the class, the ids and the attributes of the original, with
copies for entities and links resolved. -/
def AllResolved (index : Dict (String × String) Nat) (m : Mem) (ψ : Nat → Nat) (n : Nat) (m' : Mem) : Prop := ∀ p z, n ≤ p → m'[p]? = some z →
  ∃ x, m[ψ p]? = some x ∧ z.cls = x.cls ∧ (∀ u, u ∈ z.uids ↔ u ∈ x.uids) ∧ (asDict m' z).map Prod.fst = (asDict m x).map Prod.fst ∧
    alikes (CopyOf ψ) (StandsFor index ψ) ((asDict m x).map Prod.snd) ((asDict m' z).map Prod.snd) ∧
    ∀ e ∈ asDict m' z, ∀ q, V.ref q ∈ e.2.subs → n ≤ q ∧ q < p

/-- What is asked for `substitute_objects`: there are a value `v'` and a memory `M`, the given ones with links replaced by what they mean (in the entities
that `v'` contains), which the constructors accept, and in which no entity is nested in itself. There are no tuples and no dictionaries with a key `type`. -/
structure Resolution (env : Env) (index : Dict (String × String) Nat) (m M : Mem) (v v' : V) : Prop where
  typed : WellTyped env m
  wf : Json.wf v
  noTuple : Json.noTuple v
  resolved : Res index v v'
  copyable : Copyable env M v'
  acyclic : ∀ o, Nested M v' o → ¬ Inside M o o
  same : ∀ o y, M[o]? = some y → Nested M v' o → ∃ x, m[o]? = some x ∧ y.cls = x.cls ∧ (asDict M y).map Prod.fst = (asDict m x).map Prod.fst ∧
    Ress index ((asDict m x).map Prod.snd) ((asDict M y).map Prod.snd) ∧ ∀ e ∈ asDict m x, Json.wf e.2 ∧ Json.noTuple e.2

theorem Res.means {index : Dict (String × String) Nat} {v v' : V} (h : Res index v v') (hw : Json.wf v) {q : Nat} (hq : Means index v q) : V.ref q ∈ v'.subs := by
  obtain ⟨h1, h2⟩ := alike_mem v v' hw h
  rcases hq with hq | ⟨s, i, hq, hi⟩
  · obtain ⟨u, hu, rfl⟩ := h1 q hq
    exact hu
  · obtain ⟨u, hu, e⟩ := h2 s i hq
    unfold meaning at e
    rw [hi] at e
    subst e
    exact hu

theorem Resolution.source {env : Env} {index : Dict (String × String) Nat} {m M : Mem} {v v' : V} (h : Resolution env index m M v v') :
    Resolved env index m M (Nested M v') (size M) := by
  refine ⟨h.typed, h.copyable.typed, fun o ho => ?_⟩
  obtain ⟨y, hy⟩ : ∃ y, M[o]? = some y := ⟨_, List.getElem?_eq_getElem (h.copyable.there o ho)⟩
  obtain ⟨x, hx, hc, hn, hs, hp⟩ := h.same o y hy ho
  refine ⟨x, y, hx, hy, hc, hn, hs, h.copyable.plain o _ hy ho, fun e he => ⟨(hp e he).1, (hp e he).2, fun q hq => ?_⟩⟩
  have : Holds M o q := by
    obtain ⟨u, hu, ha⟩ := alikes_mem hs (List.mem_map.2 ⟨e, he, rfl⟩ : e.2 ∈ (asDict m x).map Prod.snd)
    obtain ⟨g, hg, rfl⟩ := List.mem_map.1 hu
    exact ⟨y, hy, g, hg, Res.means ha (hp e he).1 hq⟩
  exact ⟨ho.step this, size_lt this (h.copyable.there q (ho.step this)) (h.acyclic q (ho.step this))⟩

theorem alike_resolved {index : Dict (String × String) Nat} {ψ : Nat → Nat} {v v' w : V} (hv : Json.wf v) (tv : Json.noTuple v) (hw : Json.wf w) (tw : Json.noTuple w)
    (hr : Res index v v') (h : Img ψ v' w) : alike (CopyOf ψ) (StandsFor index ψ) v w := by
  have h2 := alike_nf (f := .ref) (g := meaning index) v (via ψ w) hv tv (wf_via hw) (noTuple_via hw) (fun _ _ => trivial)
    (fun s i _ => pointerLike_meaning index s i) (by rw [← nf_alike v v' hv hr tv]; exact h)
  refine alike_mono v w (fun o w _ h => via_ref h) (fun s i w _ h => ?_) (alike_unvia v w hw tw h2)
  unfold meaning at h
  unfold StandsFor
  split at h
  · exact via_ref h
  · exact via_link h

theorem alikes_of_names {L : Nat → V → Prop} {G : String → String → V → Prop} : ∀ (fs gs : List (String × V)), gs.map Prod.fst = fs.map Prod.fst →
    (fs.map Prod.fst).Nodup → (∀ f ∈ fs, ∀ g ∈ gs, g.1 = f.1 → alike L G f.2 g.2) → alikes L G (fs.map Prod.snd) (gs.map Prod.snd)
  | [], gs, h1, _, _ => by
    simp only [List.map_nil, List.map_eq_nil_iff] at h1
    subst h1
    simp [alikes]
  | f :: fs, [], h1, _, _ => by simp at h1
  | f :: fs, g :: gs, h1, h2, h3 => by
    simp only [List.map_cons, List.cons.injEq, List.nodup_cons] at h1 h2 ⊢
    simp only [alikes]
    exact ⟨g.2, gs.map Prod.snd, rfl, h3 f (by simp) g (by simp) h1.1, alikes_of_names fs gs h1.2 h2.2 (fun f' hf g' hg e => h3 f' (by simp [hf]) g' (by simp [hg]) e)⟩

theorem alikes_names {L : Nat → V → Prop} {G : String → String → V → Prop} : ∀ (fs gs : List (String × V)), gs.map Prod.fst = fs.map Prod.fst →
    (fs.map Prod.fst).Nodup → alikes L G (fs.map Prod.snd) (gs.map Prod.snd) → ∀ f ∈ fs, ∃ g ∈ gs, g.1 = f.1 ∧ alike L G f.2 g.2
  | [], gs, _, _, _ => fun f hf => by simp at hf
  | f :: fs, [], h1, _, _ => by simp at h1
  | f :: fs, g :: gs, h1, h2, h3 => by
    simp only [List.map_cons, List.cons.injEq, List.nodup_cons, alikes] at h1 h2 h3
    obtain ⟨w, ws, ⟨rfl, rfl⟩, ha, h3⟩ := h3
    intro f' hf'
    rcases List.mem_cons.1 hf' with rfl | hf'
    · exact ⟨g, by simp, h1.1, ha⟩
    · obtain ⟨g', hg, e⟩ := alikes_names fs gs h1.2 h2.2 h3 f' hf'
      exact ⟨g', by simp [hg], e⟩

theorem alikes_strings {L : Nat → V → Prop} {G : String → String → V → Prop} : ∀ (ns : List String) (l : List V), alikes L G (ns.map .str) l → l = ns.map .str
  | [], l, h => h
  | n :: ns, l, h => by
    simp only [List.map_cons, alikes, alike] at h
    obtain ⟨w, ws, rfl, rfl, h⟩ := h
    rw [alikes_strings ns ws h, List.map_cons]

theorem alike_uids {L : Nat → V → Prop} {G : String → String → V → Prop} {us us' : List (String × String)} (h : alike L G (uidsDict us) (uidsDict us')) :
    ∀ u, u ∈ us' ↔ u ∈ us := by
  unfold uidsDict at h
  simp only [alike] at h
  obtain ⟨ks', vs', ps, e, _, hp, hf, ha⟩ := h
  obtain ⟨e1, e2⟩ := V.dict.inj e
  have ha' := alikes_strings (us.map Prod.snd) (ps.map Prod.snd) (by rw [List.map_map]; exact ha)
  rw [List.map_map] at ha'
  have hz : ps = us.map (fun u => (V.str u.1, V.str u.2)) := by
    have hf' : ps.map Prod.fst = us.map (fun u => V.str u.1) := hf
    have ha'' : ps.map Prod.snd = us.map (fun u => V.str u.2) := ha'
    rw [List.zip_of_prod hf' ha'', List.zip_map']
  have hz' : ks'.zip vs' = us'.map (fun u => (V.str u.1, V.str u.2)) := by
    rw [← e1, ← e2, List.zip_map']
  rw [hz, hz'] at hp
  intro u
  have := hp.mem_iff (a := (V.str u.1, V.str u.2))
  simp only [List.mem_map, Prod.mk.injEq, V.str.injEq] at this
  constructor
  · intro hu
    obtain ⟨a, ha, h1, h2⟩ := this.2 ⟨u, hu, rfl, rfl⟩
    have : a = u := Prod.ext h1 h2
    rwa [← this]
  · intro hu
    obtain ⟨a, ha, h1, h2⟩ := this.1 ⟨u, hu, rfl, rfl⟩
    have : a = u := Prod.ext h1 h2
    rwa [← this]

theorem asDict_uids (m : Mem) (x : EObj) : ("uids", uidsDict x.uids) ∈ asDict m x := by
  unfold asDict
  simp

/-- C35: `substitute_objects` returns a copy of the value in which every link whose (scope, id) the index has is replaced by a copy of the entity the index
has for it, which carries the same ids, and every other link, and everything that is not a link, is as before; and likewise for the entities in it.
Nothing that existed is changed. Missing for the full statement: values that `Resolution` excludes, see the counterexamples; and the copies are not shared
where the originals were. -/
theorem C35_resolves_partial {env : Env} {index : Dict (String × String) Nat} {m M : Mem} {v v' : V} (h : Resolution env index m M v v') (k : Nat) (hk : M.length < k) :
    ∃ w m' ψ, substituteObjects env index k m v = .ok (w, m') ∧ (∀ p, p < m.length → m'[p]? = m[p]?) ∧ AllResolved index m ψ m.length m' ∧
      alike (CopyOf ψ) (StandsFor index ψ) v w ∧ ∀ p, V.ref p ∈ w.subs → m.length ≤ p ∧ p < m'.length := by
  have hT : Takes env index M (Nested M v') (size M) k v v' := ⟨h.wf, h.noTuple, h.copyable.wf, h.copyable.noTuple, h.copyable.ok, h.resolved, fun q hq =>
    ⟨.inl (h.resolved.means h.wf hq), by have := size_le M q; omega⟩⟩
  obtain ⟨w, m', ψ, e, hC, hg⟩ := substitute_objects_copy h.source hT
  refine ⟨w, m', ψ, e, hC.old, ?_, alike_resolved h.wf h.noTuple hg.wf hg.noTuple h.resolved hg.img, hg.refs⟩
  intro p z hp hz
  obtain ⟨y, hy, hn, ht⟩ := hC.twin p z hp hz
  obtain ⟨x, hx, hc, hfst, hs, hpl⟩ := h.same _ y hy hn
  have hnd : ((asDict m x).map Prod.fst).Nodup := by
    obtain ⟨fs, e, n1, n2, n3⟩ := asDict_names h.typed hx
    rw [e]
    simp only [List.map_cons, List.nodup_cons]
    exact ⟨n2, n1⟩
  have hny : ((asDict M y).map Prod.fst).Nodup := by rw [hfst]; exact hnd
  have hnz : ((asDict m' z).map Prod.fst).Nodup := by rw [ht.names, hfst]; exact hnd
  have pair := alikes_names _ _ hfst hnd hs
  have key : ∀ f ∈ asDict m x, ∀ g ∈ asDict m' z, g.1 = f.1 → alike (CopyOf ψ) (StandsFor index ψ) f.2 g.2 := by
    intro f hf g hg' e
    obtain ⟨f', hf', e1, e2⟩ := pair f hf
    obtain ⟨u, hu, hi⟩ := ht.fields f' hf'
    have hug : u = g.2 := by
      have h1 := Dict.get?_of_mem hnz hu
      have h2 := Dict.get?_of_mem hnz (k := g.1) (v := g.2) hg'
      rw [e1, ← e, h2] at h1
      exact (Option.some.inj h1).symm
    subst hug
    exact alike_resolved (hpl f hf).1 (hpl f hf).2 (ht.plain g hg').1 (ht.plain g hg').2.1 e2 hi
  refine ⟨x, hx, by rw [ht.cls, hc], alike_uids (key _ (asDict_uids m x) _ (asDict_uids m' z) rfl), by rw [ht.names, hfst], ?_,
    fun e he q hq => (ht.plain e he).2.2 q hq⟩
  exact alikes_of_names _ _ (by rw [ht.names, hfst]) hnd key

end Verif.Substitute
