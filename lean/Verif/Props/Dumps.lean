import Verif.Props.FlattenProps
/-!
# C44: what writing and reading leave unchanged

No hypothesis is made on the memory: whatever is written, if it is written at all.
-/

set_option linter.unusedSimpArgs false
set_option linter.unusedVariables false
set_option linter.unusedSectionVars false

namespace Verif.Json
open Verif.Py Verif.Value Verif.Schema

/-! ## What is written holds no entities -/

section
variable (E : Nat → Except PyErr V) (hE : ∀ o w, E o = .ok w → noRef w)
include hE

theorem noRef_mkDict {fs : List (String × V)} (h : ∀ f ∈ fs, noRef f.2) : noRef (mkDict fs) := by
  simp only [mkDict, noRef]
  rw [noRefs_iff]
  intro v hv
  obtain ⟨f, hf, rfl⟩ := List.mem_map.1 hv
  exact h f hf

theorem noRef_sorted {ns : List String} {vs : List V} (h : noRefs vs) : ∀ f ∈ sortFields (ns.zip vs), noRef f.2 := by
  intro f hf
  rw [noRefs_iff] at h
  rw [mem_sortFields] at hf
  exact h _ (List.of_mem_zip (a := f.1) (b := f.2) hf).2

mutual
theorem enc_noRef (v w : V) (h : enc E v = .ok w) : noRef w := by
  cases v with
  | list l =>
    simp only [enc] at h
    split at h <;> cases h
    rename_i l' hl
    simpa only [noRef] using encs_noRef l l' hl
  | tuple l =>
    simp only [enc] at h
    split at h <;> cases h
    rename_i l' hl
    simpa only [noRef] using encs_noRef l l' hl
  | dict ks vs =>
    simp only [enc] at h
    split at h
    · cases h
    · split at h <;> cases h
      rename_i vs' hl
      exact noRef_mkDict E hE (noRef_sorted E hE (encs_noRef vs vs' hl))
  | obj t ns vs =>
    simp only [enc] at h
    split at h <;> cases h
    rename_i vs' hl
    apply noRef_mkDict E hE
    have := encs_noRef vs vs' hl
    rw [noRefs_iff] at this
    intro f hf
    rw [mem_sortFields] at hf
    rcases List.mem_cons.1 hf with rfl | hf
    · simp [noRef]
    · exact this _ (List.of_mem_zip (a := f.1) (b := f.2) hf).2
  | link s i =>
    simp only [enc] at h
    cases h
    simp [mkDict, noRef, noRefs]
  | ref o => simp only [enc] at h; exact hE o w h
  | _ => simp only [enc] at h; cases h; simp [noRef]
termination_by structural v
theorem encs_noRef (l ws : List V) (h : encs E l = .ok ws) : noRefs ws := by
  cases l with
  | nil => simp only [encs] at h; cases h; simp [noRefs]
  | cons v vs =>
    simp only [encs] at h
    split at h
    · cases h
    · rename_i w hw
      split at h <;> cases h
      rename_i ws' hws
      simp only [noRefs]
      exact ⟨enc_noRef v w hw, encs_noRef vs ws' hws⟩
termination_by structural l
end
end

theorem encRef_noRef (m : Mem) (k : Nat) : ∀ o w, encRef m k o = .ok w → noRef w := by
  induction k with
  | zero => intro o w h; simp [encRef] at h
  | succ k ih =>
    intro o w h
    simp only [encRef] at h
    split at h
    · cases h
    · split at h <;> cases h
      rename_i vs hvs
      exact noRef_mkDict _ ih (noRef_sorted _ ih (encs_noRef _ ih _ _ hvs))

theorem rawDumps_noRef {m : Mem} {v t : V} (h : rawDumps m v = .ok t) : noRef t := enc_noRef _ (encRef_noRef m _) v t h

/-! ## Reading touches new entities only -/

/-- The entities of `m` are there and untouched; the index knows new entities only. -/
structure Above (m : Mem) (st : Loading) : Prop where
  len : m.length ≤ st.mem.length
  same : ∀ o < m.length, st.mem[o]? = m[o]?
  idx : ∀ k o, Dict.get? st.index k = some o → m.length ≤ o

/-- not an entity of `m` -/
def NotOld (m : Mem) (v : V) : Prop := ∀ o, v = .ref o → m.length ≤ o

theorem setField_other {m : Mem} {p o : Nat} (h : p ≠ o) (a : String) (f : V → V) : (setField m p a f)[o]? = m[o]? := by
  unfold setField
  split
  · rw [List.getElem?_set_ne h]
  · rfl

theorem linkBack_other {m : Mem} {o : Nat} {x : EObj} {p : Nat}
    (h : ∀ there back, backRef x.cls = some (there, back) → Dict.get? x.fields there ≠ some (.ref p)) : (linkBack m o x)[p]? = m[p]? := by
  unfold linkBack
  split
  · rename_i there back hb
    split
    · rename_i q hq
      apply setField_other
      rintro rfl
      exact h _ _ hb hq
    · rfl
  · rfl

theorem given_newE {m0 : Mem} {d : List (String × V)} (hd : ∀ f ∈ d, NotOld m0 f.2) {c : ECls} {a : EArg} (ha : a ∈ eargs c)
    {v : V} (h : given d a.arg = .ok v) : NotOld m0 v := by
  unfold given at h
  split at h
  · rename_i w hw
    cases h
    exact hd _ (Dict.mem_of_get? hw)
  · split at h <;> cases h
    rename_i hdf
    have all : ∀ a ∈ eargs c, ∀ v, a.dflt = some v → ∀ o, v ≠ .ref o := by
      have : ∀ c : ECls, ∀ a ∈ eargs c, a.dflt = none ∨ a.dflt = some .none ∨ a.dflt = some (.str "unknown") := by
        intro c; cases c <;> decide +kernel
      intro a ha v hv o
      rcases this c a ha with h | h | h <;> rw [h] at hv <;> cases hv <;> simp
    intro o ho
    exact absurd ho (all a ha _ hdf o)

theorem newEntity_there {env : Env} {m0 m : Mem} {c : ECls} {d : List (String × V)} {x : EObj} (hd : ∀ f ∈ d, NotOld m0 f.2)
    (h : newEntity env m c d = .ok x) : x.cls = c ∧ ∀ there back, backRef c = some (there, back) → ∀ v, Dict.get? x.fields there = some v → NotOld m0 v := by
  unfold newEntity at h
  split at h
  · cases h
  · rename_i bound hb
    split at h
    · cases h
    · rename_i vals hv
      split at h <;> cases h
      refine ⟨rfl, ?_⟩
      intro there back hbr v hget
      have hmem := Dict.mem_of_get? hget
      have hno : there ∉ (ownFields c).map Prod.fst := by
        revert hbr
        cases c <;> simp [backRef, ownFields] <;> rintro rfl _ <;> decide +kernel
      rcases List.mem_append.1 hmem with hmem | hmem
      · obtain ⟨i, hi, hg⟩ := List.getElem_of_mem hmem
        have key : ∀ (as : List EArg), (∀ a ∈ as, a ∈ eargs c) → ∀ bound vals, bindArgs d (as.map EArg.arg) = .ok bound → setAll env m bound = .ok vals →
            ∀ v, (there, v) ∈ (as.map EArg.attr).zip vals → NotOld m0 v := by
          intro as
          induction as with
          | nil => intro _ bound vals _ _ v hv; simp at hv
          | cons a as ih =>
            intro hsub bound vals hb hv v hm
            simp only [List.map_cons, bindArgs] at hb
            split at hb
            · cases hb
            · rename_i v0 hg0
              split at hb <;> cases hb
              rename_i vs hbs
              simp only [setAll] at hv
              split at hv
              · cases hv
              · rename_i w hw
                split at hv <;> cases hv
                rename_i ws hws
                simp only [List.map_cons, List.zip_cons_cons, List.mem_cons] at hm
                rcases hm with hm | hm
                · cases hm
                  have hk : ∃ cs, a.kind = .target cs := by
                    have ha := hsub a (by simp)
                    have tbl : ∀ c : ECls, ∀ a ∈ eargs c, ∀ p, backRef c = some p → a.attr = p.1 → match a.kind with | .target _ => True | _ => False := by
                      intro c
                      cases c <;> simp only [backRef] <;> simp [eargs, objectArgs, pointer, quantityArgs, conditionsArg, parametersArg]
                    have := tbl c a ha _ hbr rfl
                    revert this
                    cases a.kind <;> simp
                  obtain ⟨cs, hk⟩ := hk
                  have hn := given_newE hd (hsub a (by simp)) hg0
                  simp only [EArg.arg, hk, conv, convTarget] at hw
                  split at hw <;> cases hw
                  exact hn
                · exact ih (fun a ha => hsub a (by simp [ha])) _ _ hbs hws v hm
        exact key (eargs c) (fun _ h => h) _ _ hb hv v hmem
      · exact absurd (List.mem_map_of_mem (f := Prod.fst) hmem) hno

theorem fromDictE_old {env : Env} {m0 m : Mem} (hl : m0.length ≤ m.length) {c : ECls} {d : List (String × V)} (hd : ∀ f ∈ d, NotOld m0 f.2)
    {o : Nat} {m' : Mem} (h : fromDictE env m c d = .ok (o, m')) : ∀ p < m0.length, m'[p]? = m[p]? := by
  have hc : ∀ o m', constructE env m c d = .ok (o, m') → o = m.length ∧ ∀ p < m0.length, m'[p]? = m[p]? := by
    intro o m' h
    unfold constructE at h
    split at h <;> cases h
    rename_i x hx
    refine ⟨rfl, ?_⟩
    intro p hp
    obtain ⟨e, hn⟩ := newEntity_there hd hx
    rw [linkBack_other, List.getElem?_append_left (by omega)]
    intro there back hb hg
    rw [e] at hb
    have := hn _ _ hb _ hg p rfl
    omega
  unfold fromDictE at h
  split at h
  · cases h
  · rename_i o1 m1 h1
    obtain ⟨rfl, hold⟩ := hc _ _ h1
    split at h
    · split at h <;> cases h
      rename_i m2 h2
      intro p hp
      rw [← hold p hp]
      unfold ingredientNames at h2
      simp only at h2
      have hm1 : ∀ v : V, (match v with | V.none => m1 | v => setField m1 m.length "_name" (fun _ => v))[p]? = m1[p]? := by
        intro v
        cases v <;> first | rfl | exact setField_other (by omega) _ _
      split at h2
      · cases h2
        exact hm1 _
      · split at h2 <;> cases h2
        rw [setField_other (by omega)]
        exact hm1 _
    · cases h
      exact hold

theorem mem_erase {d : List (String × V)} {k : String} {f : String × V} (h : f ∈ Dict.erase d k) : f ∈ d := by
  induction d with
  | nil => simp [Dict.erase] at h
  | cons e d ih =>
    simp only [Dict.erase] at h
    split at h
    · simp [h]
    · rcases List.mem_cons.1 h with rfl | h
      · simp
      · simp [ih h]

theorem hook_above (env : Env) (sub : Bool) (m0 : Mem) (d : List (String × V)) (st st' : Loading) (w : V) (hd : ∀ f ∈ d, NotOld m0 f.2)
    (h : loadAndIndex env sub d st = .ok (w, st')) (hs : Above m0 st) : Above m0 st' ∧ NotOld m0 w := by
  unfold loadAndIndex at h
  split at h
  · cases h
    exact ⟨hs, by intro o ho; simp [mkDict] at ho⟩
  · split at h
    · cases h
    · unfold loadAs at h
      split at h
      · split at h
        · cases h
          refine ⟨hs, ?_⟩
          intro o ho
          unfold loadLink at ho
          split at ho
          · split at ho
            · rename_i q hq
              cases ho
              exact hs.idx _ _ hq
            · cases ho
          · cases ho
        · cases h
        · cases h
      · split at h
        · split at h <;> cases h
          rename_i v hv
          refine ⟨hs, ?_⟩
          intro o ho
          subst ho
          unfold construct at hv
          split at hv
          · cases hv
          · split at hv
            · cases hv
            · split at hv <;> cases hv
        · split at h
          · cases h
          · split at h <;> cases h
            rename_i c hc o m1 hm
            obtain ⟨rfl, hlen, _⟩ := fromDictE_out hm
            have hl := hs.len
            have hold := fromDictE_old hs.len (d := Dict.erase d "type") (fun f hf => hd f (mem_erase hf)) hm
            refine ⟨⟨?_, ?_, ?_⟩, ?_⟩
            · show m0.length ≤ m1.length
              omega
            · intro p hp
              show m1[p]? = _
              rw [hold p hp, hs.same p hp]
            · intro k p hp
              have key : ∀ (us : List (String × String)) (idx : Dict (String × String) Nat), (∀ k o, Dict.get? idx k = some o → m0.length ≤ o) →
                  ∀ k o, Dict.get? (addIndex env st.mem.length us idx) k = some o → m0.length ≤ o := by
                intro us
                induction us with
                | nil => intro idx h; simpa [addIndex] using h
                | cons u us ih =>
                  intro idx h
                  obtain ⟨s, i⟩ := u
                  simp only [addIndex]
                  apply ih
                  intro k o hk
                  rw [Dict.get?_set] at hk
                  split at hk
                  · cases hk; exact hl
                  · exact h k o hk
              exact key _ _ hs.idx k p hp
            · intro p hp
              cases hp
              exact hl
  · cases h

section
variable {env : Env} {sub : Bool} {m0 : Mem}
mutual
theorem dec_above (v : V) (hn : noRef v) (st st' : Loading) (w : V) (h : dec (loadAndIndex env sub) v st = .ok (w, st')) (hs : Above m0 st) :
    Above m0 st' ∧ NotOld m0 w := by
  cases v with
  | list l =>
    simp only [noRef] at hn
    simp only [dec] at h
    split at h <;> cases h
    rename_i l' hl
    exact ⟨(decs_above l hn st st' l' hl hs).1, by intro o ho; cases ho⟩
  | dict ks vs =>
    simp only [noRef] at hn
    simp only [dec] at h
    split at h
    · cases h
    · split at h
      · cases h
      · rename_i vs' s1 hl
        obtain ⟨h1, h2⟩ := decs_above vs hn st s1 vs' hl hs
        exact hook_above env sub m0 _ s1 st' w (fun f hf => h2 _ (List.of_mem_zip (a := f.1) (b := f.2) hf).2) h h1
  | ref o => simp [noRef] at hn
  | _ =>
    simp only [dec] at h
    cases h
    exact ⟨hs, by intro o ho; cases ho⟩
termination_by structural v
theorem decs_above (l : List V) (hn : noRefs l) (st st' : Loading) (ws : List V) (h : decs (loadAndIndex env sub) l st = .ok (ws, st')) (hs : Above m0 st) :
    Above m0 st' ∧ ∀ w ∈ ws, NotOld m0 w := by
  cases l with
  | nil =>
    simp only [decs] at h
    cases h
    exact ⟨hs, by simp⟩
  | cons v vs =>
    simp only [noRefs] at hn
    simp only [decs] at h
    split at h
    · cases h
    · rename_i w s1 hw
      split at h <;> cases h
      rename_i ws' hws
      obtain ⟨h1, h2⟩ := dec_above v hn.1 st s1 w hw hs
      obtain ⟨h3, h4⟩ := decs_above vs hn.2 s1 st' ws' hws h1
      exact ⟨h3, List.forall_mem_cons.2 ⟨h2, h4⟩⟩
termination_by structural l
end
end

theorem above_nil (m : Mem) : Above m { mem := m, index := [] } := ⟨Nat.le_refl _, fun _ _ => rfl, fun k o h => by simp [Dict.get?] at h⟩

/-- `m` is the beginning of `m'` -/
def Extends (m m' : Mem) : Prop := ∃ extra, m' = m ++ extra

theorem Extends.refl (m : Mem) : Extends m m := ⟨[], by simp⟩
theorem Extends.trans {a b c : Mem} (h : Extends a b) (h' : Extends b c) : Extends a c := by
  obtain ⟨x, rfl⟩ := h
  obtain ⟨y, rfl⟩ := h'
  exact ⟨x ++ y, by simp⟩

theorem Above.extends {m : Mem} {st : Loading} (h : Above m st) : Extends m st.mem := by
  refine ⟨st.mem.drop m.length, ?_⟩
  apply List.ext_getElem?
  intro o
  by_cases ho : o < m.length
  · rw [h.same o ho, List.getElem?_append_left ho]
  · rw [List.getElem?_append_right (by omega), List.getElem?_drop]
    congr 1
    omega

theorem rawLoads_extends {env : Env} {m : Mem} {t : V} (ht : noRef t) {v : V} {m' : Mem} (h : rawLoads env m t = .ok (v, m')) : Extends m m' := by
  unfold rawLoads at h
  split at h <;> cases h
  rename_i st hst
  exact (dec_above t ht _ _ _ hst (above_nil m)).1.extends

theorem build_extends {env : Env} {m : Mem} {d : V} {v : V} {m' : Mem} (h : build env m d = .ok (v, m')) : Extends m m' := by
  unfold build at h
  split at h
  · cases h
  · rename_i t ht
    exact rawLoads_extends (rawDumps_noRef ht) h

end Verif.Json

namespace Verif.Substitute
open Verif.Py Verif.Value Verif.Schema Verif.Json Verif.Traverse

/-! ## Substitution only adds to the memory -/

theorem remember_mem (v w : V) (st : SubSt) : (remember v w st).mem = st.mem := by
  unfold remember
  split <;> rfl

section
variable (env : Env) (repl : Mem → V → Except PyErr (Option V)) (expand : Nat → SubSt → Except PyErr (V × SubSt))
  (hx : ∀ o st w st', expand o st = .ok (w, st') → Extends st.mem st'.mem)
include hx

theorem through_extends {thing r w : V} {st st' : SubSt} (h : through expand thing r st = .ok (w, st')) : Extends st.mem st'.mem := by
  unfold through at h
  split at h
  · split at h <;> cases h
    rename_i o _ st1 h1
    rw [remember_mem]
    exact hx _ _ _ _ h1
  · cases h
    rw [remember_mem]
    exact Extends.refl _

theorem subLeaf_extends {thing w : V} {st st' : SubSt} (h : subLeaf repl expand thing st = .ok (w, st')) : Extends st.mem st'.mem := by
  unfold subLeaf at h
  split at h
  · cases h; exact Extends.refl _
  · split at h
    · cases h
    · exact through_extends expand hx h
    · have := through_extends expand hx h
      rwa [remember_mem] at this

theorem subNumber_extends {thing w : V} {st st' : SubSt} (h : subNumber thing st = .ok (w, st')) : Extends st.mem st'.mem := by
  unfold subNumber at h
  split at h <;> cases h
  · exact Extends.refl _
  · rw [remember_mem]; exact Extends.refl _

mutual
theorem sub_extends (v w : V) (st st' : SubSt) (h : sub env repl expand v st = .ok (w, st')) : Extends st.mem st'.mem := by
  cases v with
  | none => simp only [sub] at h; cases h; exact Extends.refl _
  | str s => simp only [sub] at h; cases h; exact Extends.refl _
  | bool b => simp only [sub] at h; exact subNumber_extends expand hx h
  | int b => simp only [sub] at h; exact subNumber_extends expand hx h
  | float b => simp only [sub] at h; exact subNumber_extends expand hx h
  | link s i => simp only [sub] at h; exact subLeaf_extends repl expand hx h
  | ref o => simp only [sub] at h; exact subLeaf_extends repl expand hx h
  | list l =>
    simp only [sub] at h
    split at h <;> cases h
    rename_i l' hl
    exact subList_extends l l' st st' hl
  | tuple l =>
    simp only [sub] at h
    split at h
    · cases h
    · split at h
      · cases h; exact Extends.refl _
      · split at h <;> cases h
        rename_i l' st1 hl
        rw [remember_mem]
        exact subList_extends l l' st st1 hl
  | dict ks vs =>
    simp only [sub] at h
    split at h
    · cases h
    · rename_i ks' st1 h1
      split at h <;> cases h
      rename_i vs' h2
      exact (subList_extends ks ks' st st1 h1).trans (subList_extends vs vs' st1 st' h2)
  | obj t ns vs =>
    simp only [sub] at h
    split at h
    · cases h
    · rename_i vs' st1 h1
      split at h <;> cases h
      rename_i m1 h2
      exact (subList_extends vs vs' st st1 h1).trans (build_extends h2)
termination_by structural v
theorem subList_extends (l ws : List V) (st st' : SubSt) (h : subList env repl expand l st = .ok (ws, st')) : Extends st.mem st'.mem := by
  cases l with
  | nil => simp only [subList] at h; cases h; exact Extends.refl _
  | cons v vs =>
    simp only [subList] at h
    split at h
    · cases h
    · rename_i w st1 h1
      split at h <;> cases h
      rename_i ws' h2
      exact (sub_extends v w st st1 h1).trans (subList_extends vs ws' st1 st' h2)
termination_by structural l
end
end

theorem expandE_extends (env : Env) (repl : Mem → V → Except PyErr (Option V)) (k : Nat) :
    ∀ o st w st', expandE env repl k o st = .ok (w, st') → Extends st.mem st'.mem := by
  induction k with
  | zero => intro o st w st' h; simp [expandE] at h
  | succ k ih =>
    intro o st w st' h
    rw [expandE_succ] at h
    split at h
    · cases h
    · split at h
      · cases h
      · rename_i vs st1 h1
        split at h <;> cases h
        rename_i m1 h2
        exact (subList_extends env repl _ ih _ _ _ _ h1).trans (build_extends h2)

theorem substitute_extends {env : Env} {repl : Mem → V → Except PyErr (Option V)} {k : Nat} {m : Mem} {v w : V} {m' : Mem}
    (h : substitute env repl k m v = .ok (w, m')) : Extends m m' := by
  unfold substitute at h
  split at h <;> cases h
  rename_i st h1
  exact sub_extends env repl _ (expandE_extends env repl k) _ _ _ _ h1

theorem stripAll_extends {env : Env} : ∀ (l ws : List V) (m m' : Mem), stripAll env l m = .ok (ws, m') → Extends m m' := by
  intro l
  induction l with
  | nil => intro ws m m' h; simp only [stripAll] at h; cases h; exact Extends.refl _
  | cons v vs ih =>
    intro ws m m' h
    simp only [stripAll] at h
    split at h
    · cases h
    · rename_i w m1 h1
      split at h <;> cases h
      rename_i ws' h2
      exact (substitute_extends h1).trans (ih _ _ _ h2)

theorem flattenSet_extends {env : Env} {n : Nat} {m : Mem} {obj : V} {l : List V} {m' : Mem}
    (h : flattenSet env n m obj = some (.ok (l, m'))) : Extends m m' := by
  unfold flattenSet at h
  split at h
  · cases h
  · cases h
  · split at h
    · cases h
    · rename_i h1
      cases h
      exact stripAll_extends _ _ _ _ h1

/-! ## Ids -/

/-- Along the loop of `recursive_foreach`: what the callback keeps on the things in reach. -/
theorem loop_keeps {σ α κ : Type} [DecidableEq κ] (G : Graph σ α κ) (first : Bool) (func : σ → α → Except PyErr σ) (P : σ → Prop) (Q : α → Prop)
    (hf : ∀ s x s', P s → Q x → G.entity x = true → func s x = .ok s' → P s') (hk : ∀ s x, P s → Q x → ∀ y ∈ G.kids s x, Q y) :
    ∀ n s seen queue s', P s → (∀ x ∈ queue, Q x) → loop G first func n s seen queue = some (.ok s') → P s' := by
  have ha : ∀ b s x s', P s → Q x → act G b func s x = .ok s' → P s' := by
    intro b s x s' hP hQ h
    unfold act at h
    split at h
    · rename_i hb
      simp only [Bool.and_eq_true] at hb
      exact hf s x s' hP hQ hb.2 h
    · cases h; exact hP
  intro n
  induction n with
  | zero => intro s seen queue s' _ _ h; simp [loop] at h
  | succ n ih =>
    intro s seen queue s' hP hQ h
    cases queue with
    | nil => simp only [loop] at h; cases h; exact hP
    | cons x queue =>
      have hx := hQ x (by simp)
      have hq : ∀ y ∈ queue, Q y := fun y hy => hQ y (by simp [hy])
      simp only [loop] at h
      split at h
      · cases h
      · split at h
        · exact ih _ _ _ _ hP hq h
        · split at h
          · cases h
          · rename_i s1 h1
            have p1 := ha _ _ _ _ hP hx h1
            split at h
            · cases h
            · rename_i s2 h2
              have p2 := ha _ _ _ _ p1 hx h2
              refine ih _ _ _ _ p2 ?_ h
              intro y hy
              rcases List.mem_append.1 hy with hy | hy
              · exact hk s1 x p1 hx y (List.mem_reverse.1 hy)
              · exact hq y hy

/-- what `x` may have become: an entity in reach without ids may have gained one -/
def GainsId (scope : String) (gen : Nat → String) (drawn : Nat) (m : Mem) (root : V) (o : Nat) (x y : EObj) : Prop :=
  y = x ∨ (Reachable m false root (.ref o) ∧ x.uids = [] ∧ ∃ k, drawn ≤ k ∧ y = { x with uids := [(scope, gen k)] })

theorem setUuids_gains {scope : String} {gen : Nat → String} {n : Nat} {m : Mem} {drawn : Nat} {root : V} {m' : Mem} {c : Nat}
    (h : setUuids scope gen n m drawn root = some (.ok (m', c))) :
    m'.length = m.length ∧ ∀ (o : Nat) (x : EObj), m[o]? = some x → ∃ y, m'[o]? = some y ∧ GainsId scope gen drawn m root o x y := by
  have := loop_keeps (foreachGraph Nat m.length) false (assignUid scope gen)
    (fun s => SameGraph m s.1 ∧ drawn ≤ s.2 ∧ ∀ (o : Nat) (x : EObj), m[o]? = some x → ∃ y, s.1[o]? = some y ∧ GainsId scope gen drawn m root o x y)
    (Reachable m false root) ?_ ?_ n (m, drawn) [] [root] (m', c) ?_ ?_ h
  · obtain ⟨h1, _, h2⟩ := this
    refine ⟨?_, h2⟩
    have := congrArg List.length h1
    simpa using this
  · rintro s x s' ⟨h1, h2, h3⟩ hr he hf
    refine ⟨sameGraph_trans h1 (assignUid_sameGraph hf), ?_⟩
    cases x <;> simp only [assignUid, reduceCtorEq] at hf
    rename_i p
    split at hf
    · rename_i z hz
      split at hf <;> cases hf
      · rename_i hl
        refine ⟨by simp only; omega, ?_⟩
        intro o x hx
        obtain ⟨y, hy, hg⟩ := h3 o x hx
        simp only
        by_cases e : p = o
        · subst e
          rw [hz] at hy
          cases hy
          refine ⟨_, by rw [List.getElem?_set_self (List.getElem?_eq_some_iff.1 hz).1], ?_⟩
          rcases hg with rfl | ⟨_, _, k, _, rfl⟩
          · exact .inr ⟨hr, List.eq_nil_of_length_eq_zero hl, s.2, h2, rfl⟩
          · simp at hl
        · rw [List.getElem?_set_ne e]
          exact ⟨y, hy, hg⟩
      · exact ⟨h2, h3⟩
    · cases hf
  · rintro s x ⟨h1, _⟩ hr y hy
    have : y ∈ kidsForeach s.1 x := hy
    rw [kidsForeach_congr h1, mem_kidsForeach] at this
    exact .step hr this
  · exact ⟨sameGraph_refl m, Nat.le_refl _, fun o x hx => ⟨x, hx, .inl rfl⟩⟩
  · intro x hx
    rw [List.mem_singleton.1 hx]
    exact .refl _

theorem extends_get {m m' : Mem} (h : Extends m m') {o : Nat} {x : EObj} (hx : m[o]? = some x) : m'[o]? = some x := by
  obtain ⟨e, rfl⟩ := h
  exact get_append hx e

/-- C44. If `dumps(obj)` returns then every entity there was before is still there, with the class, all fields (back references
included) and all ids it had, except that an entity in reach of `obj` that had no id at all may have gained one, under the scope of the
encoder. Everything else that was made is new. -/
theorem C44_dumps_keeps (env : Env) (scope : String) (gen : Nat → String) (n : Nat) (m : Mem) (drawn : Nat) (obj t : V) (m' : Mem)
    (h : dumps env scope gen n m drawn obj = some (.ok (t, m'))) :
    ∀ (o : Nat) (x : EObj), m[o]? = some x → ∃ y, m'[o]? = some y ∧ y.cls = x.cls ∧ y.fields = x.fields ∧
      (y.uids = x.uids ∨ (Reachable m false obj (.ref o) ∧ x.uids = [] ∧ ∃ k, drawn ≤ k ∧ y.uids = [(scope, gen k)])) := by
  unfold dumps at h
  split at h
  · cases h
  · cases h
  · rename_i additional m2 h1
    simp only [Option.some.injEq] at h
    unfold flatten at h1
    simp only at h1
    split at h1
    · cases h1
    · cases h1
    · rename_i m1 c hu
      obtain ⟨_, hg⟩ := setUuids_gains hu
      have e1 := flattenSet_extends h1
      have e2 : Extends m2 m' := by
        unfold writeContext at h
        split at h
        · cases h
        · rename_i ks vs m3 h3
          split at h <;> cases h
          exact substitute_extends h3
        · cases h
      intro o x hx
      obtain ⟨y, hy, hgain⟩ := hg o x hx
      refine ⟨y, extends_get (e1.trans e2) hy, ?_⟩
      rcases hgain with rfl | ⟨hr, hn, k, hk, rfl⟩
      · exact ⟨rfl, rfl, .inl rfl⟩
      · refine ⟨rfl, rfl, .inr ⟨?_, hn, k, hk, rfl⟩⟩
        have step : ∀ w, Reachable m false (mkDict [("object", obj)]) w → w = mkDict [("object", obj)] ∨ w = .str "object" ∨ Reachable m false obj w := by
          intro w hw
          induction hw with
          | refl => exact .inl rfl
          | step hw hc ih =>
            rcases ih with rfl | rfl | ih
            · right
              rw [← mem_kidsForeach] at hc
              simp only [mkDict, kidsForeach, List.map_cons, List.map_nil] at hc
              simp at hc
              rcases hc with rfl | rfl
              · exact .inl rfl
              · exact .inr (.refl _)
            · rw [← mem_kidsForeach] at hc
              simp [kidsForeach] at hc
            · exact .inr (.inr (.step ih hc))
        rcases step _ hr with h | h | h
        · simp [mkDict] at h
        · cases h
        · exact h

/-- `loads` leaves all entities that exist unchanged: what it returns is made of new ones. -/
theorem C44_loads_keeps (env : Env) (m : Mem) (t v : V) (m' : Mem) (ht : noRef t) (h : loads env m t = .ok (v, m')) : Extends m m' := by
  unfold loads at h
  split at h
  · cases h
  · rename_i ks vs st hd
    split at h <;> cases h
    exact (dec_above t ht _ _ _ hd (above_nil m)).1.extends
  · cases h

end Verif.Substitute
namespace Verif.Substitute
open Verif.Py Verif.Value Verif.Schema Verif.Json Verif.Traverse

/-- a process without ids, and a material that points to it -/
def unnamed : Mem :=
  [⟨.processRun, [], [("_name", .str "p"), ("_ingredients", .list []), ("_output_material", .ref 1)]⟩,
   ⟨.materialRun, [("my", "m")], [("_name", .str "m"), ("_process", .ref 0), ("_measurements", .list [])]⟩]

example : ((dumps plainEnv "auto" (fun _ => "x") 50 unnamed 0 (.ref 1)).map (fun r => match r with
    | .ok (_, m') => (m'.take 2).map EObj.uids
    | .error _ => [])) = some [[("auto", "x")], [("my", "m")]] := by decide +kernel
end Verif.Substitute
