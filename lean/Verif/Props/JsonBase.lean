import Verif.Model.Json
/-!
# Lemmas on sorting, on renaming inside values, and on the setters
-/

set_option linter.unusedSimpArgs false
set_option linter.unusedVariables false
set_option linter.unusedSectionVars false

namespace Verif.Json
open Verif.Py Verif.Value Verif.Schema

/-! ## Sorting -/

theorem insertField_perm (f : String × V) (l : List (String × V)) : (insertField f l).Perm (f :: l) := by
  induction l with
  | nil => simp [insertField]
  | cons g gs ih =>
    simp only [insertField]
    split
    · exact List.Perm.refl _
    · exact (List.Perm.cons g ih).trans (List.Perm.swap f g gs)

theorem sortFields_perm (l : List (String × V)) : (sortFields l).Perm l := by
  induction l with
  | nil => simp [sortFields]
  | cons f fs ih => exact (insertField_perm f _).trans (List.Perm.cons f ih)

/-- in order -/
def Sorted (l : List (String × V)) : Prop := l.Pairwise (fun a b => a.1 ≤ b.1)

theorem insertField_sorted (f : String × V) (l : List (String × V)) (h : Sorted l) : Sorted (insertField f l) := by
  induction l with
  | nil => simp [insertField, Sorted]
  | cons g gs ih =>
    unfold Sorted at *
    rw [List.pairwise_cons] at h
    simp only [insertField]
    split
    · rename_i hle
      rw [List.pairwise_cons, List.pairwise_cons]
      refine ⟨?_, h⟩
      intro b hb
      rcases List.mem_cons.1 hb with rfl | hb
      · exact hle
      · exact String.le_trans hle (h.1 b hb)
    · rename_i hle
      rw [List.pairwise_cons]
      refine ⟨?_, ih h.2⟩
      intro b hb
      rcases List.mem_cons.1 ((insertField_perm f gs).mem_iff.1 hb) with rfl | hb
      · exact (String.le_total _ _).resolve_left hle
      · exact h.1 b hb

theorem sortFields_sorted (l : List (String × V)) : Sorted (sortFields l) := by
  induction l with
  | nil => simp [sortFields, Sorted]
  | cons f fs ih => exact insertField_sorted f _ ih

theorem sortFields_of_sorted (l : List (String × V)) (h : Sorted l) : sortFields l = l := by
  induction l with
  | nil => rfl
  | cons f fs ih =>
    unfold Sorted at h
    rw [List.pairwise_cons] at h
    simp only [sortFields, ih h.2]
    cases fs with
    | nil => rfl
    | cons g gs =>
      simp only [insertField]
      rw [if_pos (h.1 g (by simp))]

theorem sortFields_idem (l : List (String × V)) : sortFields (sortFields l) = sortFields l :=
  sortFields_of_sorted _ (sortFields_sorted l)

/-- change the values of the fields -/
def onSnd (h : V → V) (l : List (String × V)) : List (String × V) := l.map (fun f => (f.1, h f.2))

theorem onSnd_insert (h : V → V) (f : String × V) (l : List (String × V)) :
    insertField (f.1, h f.2) (onSnd h l) = onSnd h (insertField f l) := by
  induction l with
  | nil => rfl
  | cons g gs ih =>
    simp only [onSnd, List.map_cons, insertField] at *
    split
    · simp
    · simp only [List.map_cons]
      rw [ih]

theorem onSnd_sort (h : V → V) (l : List (String × V)) : sortFields (onSnd h l) = onSnd h (sortFields l) := by
  induction l with
  | nil => rfl
  | cons f fs ih =>
    have : onSnd h (f :: fs) = (f.1, h f.2) :: onSnd h fs := rfl
    rw [this, sortFields, ih, onSnd_insert, sortFields]

theorem onSnd_zip (h : V → V) (ns : List String) (vs : List V) : onSnd h (ns.zip vs) = ns.zip (vs.map h) := by
  induction ns generalizing vs with
  | nil => rfl
  | cons n ns ih => cases vs with
    | nil => rfl
    | cons v vs => simp [onSnd, List.zip_cons_cons] at *; exact ih vs

theorem onSnd_comp (h h' : V → V) (l : List (String × V)) : onSnd h (onSnd h' l) = onSnd (fun v => h (h' v)) l := by
  simp [onSnd, Function.comp_def]

theorem onSnd_fst (h : V → V) (l : List (String × V)) : (onSnd h l).map Prod.fst = l.map Prod.fst := by
  simp [onSnd, Function.comp_def]

theorem onSnd_snd (h : V → V) (l : List (String × V)) : (onSnd h l).map Prod.snd = (l.map Prod.snd).map h := by
  simp [onSnd, Function.comp_def]

theorem onSnd_congr (h h' : V → V) (l : List (String × V)) (e : ∀ f ∈ l, h f.2 = h' f.2) : onSnd h l = onSnd h' l := by
  unfold onSnd
  apply List.map_congr_left
  intro f hf
  rw [e f hf]

theorem zip_fst_snd (l : List (String × V)) : (l.map Prod.fst).zip (l.map Prod.snd) = l := by
  induction l with
  | nil => rfl
  | cons f fs ih => simp [ih]

/-- two arrangements of a dictionary are sorted alike -/
theorem sortFields_perm_eq (l l' : List (String × V)) (h : l.Perm l') (hn : (l.map Prod.fst).Nodup) : sortFields l = sortFields l' := by
  have anti : ∀ a b : String × V, a ∈ sortFields l → b ∈ sortFields l' → a.1 ≤ b.1 → b.1 ≤ a.1 → a = b := by
    intro a b ha hb h1 h2
    have ha' := (sortFields_perm l).mem_iff.1 ha
    have hb' := h.mem_iff.2 ((sortFields_perm l').mem_iff.1 hb)
    have e := String.le_antisymm h1 h2
    have w := Dict.get?_of_mem (d := l) hn (k := a.1) (v := a.2) ha'
    have w' := Dict.get?_of_mem (d := l) hn (k := b.1) (v := b.2) hb'
    rw [e, w'] at w
    exact Prod.ext e (Option.some.inj w).symm
  exact List.Perm.eq_of_pairwise anti (sortFields_sorted l) (sortFields_sorted l')
    (((sortFields_perm l).trans h).trans (sortFields_perm l').symm)

theorem strings_str (l : List String) : strings (l.map .str) = some l := by
  induction l with
  | nil => rfl
  | cons a l ih => simp [strings, ih]

theorem strings_eq {l : List V} {ss : List String} (h : strings l = some ss) : l = ss.map .str := by
  induction l generalizing ss with
  | nil => simp [strings] at h; subst h; rfl
  | cons v l ih =>
    cases v <;> simp [strings] at h
    obtain ⟨a, ha, e⟩ := h
    subst e
    simp [ih ha]

theorem mkDict_keys (fs : List (String × V)) : strings (fs.map (fun f => V.str f.1)) = some (fs.map Prod.fst) := by
  have : fs.map (fun f => V.str f.1) = (fs.map Prod.fst).map .str := by simp
  rw [this, strings_str]

/-! ## Renaming -/

section
variable (f : Nat → V) (g : String → String → V)

/-- a dictionary as JSON writes it: with its keys in order -/
def sortDict (ks vs : List V) : V := match strings ks with
  | some names => mkDict (sortFields (names.zip vs))
  | none => .dict ks vs

mutual
/-- replace the entities and links in a value; put the dictionaries in order, make tuples lists -/
def tr : V → V
  | .list l => .list (trs l)
  | .tuple l => .list (trs l)
  | .dict ks vs => sortDict ks (trs vs)
  | .obj t ns vs => .obj t ns (trs vs)
  | .link s i => g s i
  | .ref o => f o
  | .none => .none
  | .bool b => .bool b
  | .int i => .int i
  | .float q => .float q
  | .str s => .str s
def trs : List V → List V
  | [] => []
  | v :: vs => tr v :: trs vs
end

theorem trs_eq (l : List V) : trs f g l = l.map (tr f g) := by
  induction l with
  | nil => rfl
  | cons v vs ih => simp [trs, ih]

end

/-- The shape of values that JSON keeps: keys are distinct strings, none is "type"; objects have as many values as names. -/
def wfDict (ks vs : List V) : Prop :=
  ks.length = vs.length ∧ ∃ names, strings ks = some names ∧ names.Nodup ∧ "type" ∉ names

mutual
def wf : V → Prop
  | .list l => wfs l
  | .tuple l => wfs l
  | .dict ks vs => wfDict ks vs ∧ wfs vs
  | .obj _ ns vs => ns.length = vs.length ∧ wfs vs
  | _ => True
def wfs : List V → Prop
  | [] => True
  | v :: vs => wf v ∧ wfs vs
end

theorem wfs_iff (l : List V) : wfs l ↔ ∀ v ∈ l, wf v := by
  induction l with
  | nil => simp [wfs]
  | cons v vs ih => simp [wfs, ih]

/-- The object `obj t ns vs` is one that the constructor of its class accepts as it is. -/
def Stable (env : Env) (m : Mem) (t : String) (ns : List String) (vs : List V) : Prop :=
  ∃ c, Dict.get? table t = some c ∧ ns = c.names ∧ vs.length = ns.length ∧
    (∀ p ∈ c.args.zip vs, conv env m p.1.kind p.2 = .ok p.2) ∧ checkOrder c (ns.zip vs) = .ok ()

mutual
/-- the objects in a value are accepted by the constructors of their classes as they are -/
def okV (env : Env) (m : Mem) : V → Prop
  | .list l => okVs env m l
  | .tuple l => okVs env m l
  | .dict _ vs => okVs env m vs
  | .obj t ns vs => Stable env m t ns vs ∧ okVs env m vs
  | _ => True
def okVs (env : Env) (m : Mem) : List V → Prop
  | [] => True
  | v :: vs => okV env m v ∧ okVs env m vs
end

theorem okVs_iff (env : Env) (m : Mem) (l : List V) : okVs env m l ↔ ∀ v ∈ l, okV env m v := by
  induction l with
  | nil => simp [okVs]
  | cons v vs ih => simp [okVs, ih]

/-! ## Writing and reading values without entities -/

mutual
/-- no entity in the value -/
def noRef : V → Prop
  | .list l => noRefs l
  | .tuple l => noRefs l
  | .dict _ vs => noRefs vs
  | .obj _ _ vs => noRefs vs
  | .ref _ => False
  | _ => True
def noRefs : List V → Prop
  | [] => True
  | v :: vs => noRef v ∧ noRefs vs
end

theorem noRefs_iff (l : List V) : noRefs l ↔ ∀ v ∈ l, noRef v := by
  induction l with
  | nil => simp [noRefs]
  | cons v vs ih => simp [noRefs, ih]

mutual
/-- the tree that is written for a value; `T` gives it for entities -/
def tree (T : Nat → V) : V → V
  | .list l => .list (trees T l)
  | .tuple l => .list (trees T l)
  | .dict ks vs => sortDict ks (trees T vs)
  | .obj t ns vs => mkDict (sortFields (("type", .str t) :: ns.zip (trees T vs)))
  | .link s i => mkDict [("id", .str i), ("scope", .str s), ("type", .str "link_by_uid")]
  | .ref o => T o
  | .none => .none
  | .bool b => .bool b
  | .int i => .int i
  | .float q => .float q
  | .str s => .str s
def trees (T : Nat → V) : List V → List V
  | [] => []
  | v :: vs => tree T v :: trees T vs
end

theorem trees_eq (T : Nat → V) (l : List V) : trees T l = l.map (tree T) := by
  induction l with
  | nil => rfl
  | cons v vs ih => simp [trees, ih]

mutual
theorem enc_tree (E : Nat → Except PyErr V) (T : Nat → V) (v : V) (hw : wf v) (hn : noRef v) : enc E v = .ok (tree T v) := by
  cases v with
  | list l => simp only [wf, noRef] at hw hn; simp [enc, encs_trees E T l hw hn, tree]
  | tuple l => simp only [wf, noRef] at hw hn; simp [enc, encs_trees E T l hw hn, tree]
  | dict ks vs =>
    simp only [wf, noRef] at hw hn
    obtain ⟨⟨hl, names, hs, _⟩, hw⟩ := hw
    simp [enc, encs_trees E T vs hw hn, tree, sortDict, hs]
  | obj t ns vs => simp only [wf, noRef] at hw hn; simp [enc, encs_trees E T vs hw.2 hn, tree]
  | ref o => simp [noRef] at hn
  | _ => simp [enc, tree]
termination_by structural v
theorem encs_trees (E : Nat → Except PyErr V) (T : Nat → V) (l : List V) (hw : wfs l) (hn : noRefs l) : encs E l = .ok (trees T l) := by
  cases l with
  | nil => rfl
  | cons v vs =>
    simp only [wfs, noRefs] at hw hn
    simp [encs, enc_tree E T v hw.1 hn.1, encs_trees E T vs hw.2 hn.2, trees]
termination_by structural l
end

theorem decs_of {σ : Type} (hook : List (String × V) → σ → Except PyErr (V × σ)) (st : σ) (a b : V → V) (l : List V)
    (h : ∀ v ∈ l, dec hook (a v) st = .ok (b v, st)) : decs hook (l.map a) st = .ok (l.map b, st) := by
  induction l with
  | nil => rfl
  | cons v vs ih =>
    simp only [List.map_cons, decs, h v (by simp), ih (fun w hw => h w (by simp [hw]))]

/-- reading a dictionary whose values are read without changing the state -/
theorem dec_mkDict {σ : Type} (hook : List (String × V) → σ → Except PyErr (V × σ)) (st : σ) (a b : V → V) (l : List (String × V))
    (h : ∀ e ∈ l, dec hook (a e.2) st = .ok (b e.2, st)) : dec hook (mkDict (onSnd a l)) st = hook (onSnd b l) st := by
  have e1 : (onSnd a l).map Prod.snd = (l.map Prod.snd).map a := onSnd_snd a l
  have := decs_of hook st a b (l.map Prod.snd) (by
    intro v hv
    obtain ⟨e, he, rfl⟩ := List.mem_map.1 hv
    exact h e he)
  simp only [mkDict, dec, mkDict_keys, onSnd_fst, e1, this]
  congr 1
  rw [← onSnd_fst b l, ← onSnd_snd b l, zip_fst_snd]

theorem get?_perm {l l' : List (String × V)} (h : l.Perm l') (hn : (l.map Prod.fst).Nodup) (k : String) :
    Dict.get? l k = Dict.get? l' k := by
  have hn' : (l'.map Prod.fst).Nodup := (h.map Prod.fst).nodup_iff.1 hn
  cases e : Dict.get? l' k with
  | none =>
    rw [Dict.get?_eq_none_iff] at e ⊢
    intro hk
    exact e ((h.map Prod.fst).mem_iff.1 hk)
  | some v => exact Dict.get?_of_mem hn (h.mem_iff.2 (Dict.mem_of_get? e))

theorem get?_zip {ns : List String} {vs : List V} (hl : ns.length = vs.length) (hn : ns.Nodup) {i : Nat} {n : String} {v : V}
    (h1 : ns[i]? = some n) (h2 : vs[i]? = some v) : Dict.get? (ns.zip vs) n = some v := by
  apply Dict.get?_of_mem
  · show (Dict.keys (ns.zip vs)).Nodup
    have : Dict.keys (ns.zip vs) = ns := by
      unfold Dict.keys; rw [List.map_fst_zip]; omega
    rw [this]; exact hn
  · have : (ns.zip vs)[i]? = some (n, v) := by
      rw [List.getElem?_zip_eq_some]
      exact ⟨h1, h2⟩
    exact List.mem_of_getElem? this

/-- the arguments are found in the dictionary -/
theorem bind_of (kwargs : List (String × V)) (args : List Arg) (vs : List V) (hl : args.length = vs.length)
    (h : ∀ p ∈ args.zip vs, Dict.get? kwargs p.1.name = some p.2) :
    bindArgs kwargs args = .ok ((args.zip vs).map (fun p => (p.1.kind, p.2))) := by
  induction args generalizing vs with
  | nil => simp [bindArgs]
  | cons a args ih =>
    cases vs with
    | nil => simp at hl
    | cons v vs =>
      have h1 := h (a, v) (by simp)
      have h2 := ih vs (by simpa using hl) (fun p hp => h p (by simp [hp]))
      simp only at h1
      simp [bindArgs, given, h1, h2]

theorem setAll_of (env : Env) (m : Mem) (args : List Arg) (vs : List V) (hl : args.length = vs.length)
    (h : ∀ p ∈ args.zip vs, conv env m p.1.kind p.2 = .ok p.2) :
    setAll env m ((args.zip vs).map (fun p => (p.1.kind, p.2))) = .ok vs := by
  induction args generalizing vs with
  | nil => cases vs with
    | nil => rfl
    | cons v vs => simp at hl
  | cons a args ih =>
    cases vs with
    | nil => simp at hl
    | cons v vs =>
      have h1 := h (a, v) (by simp)
      have h2 := ih vs (by simpa using hl) (fun p hp => h p (by simp [hp]))
      simp only at h1
      simp [setAll, h1, h2]

/-- the names of the arguments are distinct, and none is "type" or "self" -/
theorem table_names (t : String) (c : Cls) (h : Dict.get? table t = some c) : c.names.Nodup ∧ "type" ∉ c.names ∧ "self" ∉ c.names := by
  have := Dict.mem_of_get? h
  have all : ∀ e ∈ table, e.2.names.Nodup ∧ "type" ∉ e.2.names ∧ "self" ∉ e.2.names := by decide +kernel
  exact all _ this

theorem table_not_link (c : Cls) : Dict.get? table "link_by_uid" ≠ some c := by
  intro h
  have := Dict.mem_of_get? h
  have all : ∀ e ∈ table, e.1 ≠ "link_by_uid" := by decide +kernel
  exact all _ this rfl

/-- constructing an object again from its own attributes, in any order -/
theorem construct_again (env : Env) (m : Mem) (t : String) (ns : List String) (vs : List V) (c : Cls) (hc : Dict.get? table t = some c)
    (hs : Stable env m t ns vs) (kwargs : List (String × V)) (hk : ∀ n v, (n, v) ∈ ns.zip vs → Dict.get? kwargs n = some v) :
    construct env m t c kwargs = .ok (.obj t ns vs) := by
  obtain ⟨c', hc', hns, hl, hcv, ho⟩ := hs
  rw [hc] at hc'
  cases hc'
  subst hns
  have hl' : c.args.length = vs.length := by simpa [Cls.names] using hl.symm
  have hb := bind_of kwargs c.args vs hl' (by
    intro p hp
    apply hk
    have : c.names.zip vs = (c.args.zip vs).map (fun p => (p.1.name, p.2)) := by
      unfold Cls.names
      rw [List.zip_map_left]
      rfl
    rw [this]
    exact List.mem_map.2 ⟨p, hp, rfl⟩)
  simp [construct, hb, setAll_of env m c.args vs hl' hcv, ho]

/-- what a link becomes on reading -/
def readLink (env : Env) (sub : Bool) (st : Loading) (s i : String) : V := loadLink env sub s i st

mutual
/-- Reading what was written for a value without entities gives the value, with its links replaced by what they stand for. -/
theorem dec_tree (env : Env) (sub : Bool) (st : Loading) (f T : Nat → V) (v : V) (hw : wf v) (hn : noRef v)
    (ho : okV env st.mem (tr f (readLink env sub st) v)) :
    dec (loadAndIndex env sub) (tree T v) st = .ok (tr f (readLink env sub st) v, st) := by
  cases v with
  | list l =>
    simp only [wf, noRef, tr, okV] at hw hn ho
    simp [tree, dec, decs_trees env sub st f T l hw hn ho, tr]
  | tuple l =>
    simp only [wf, noRef, tr, okV] at hw hn ho
    simp [tree, dec, decs_trees env sub st f T l hw hn ho, tr]
  | dict ks vs =>
    simp only [wf, noRef] at hw hn
    obtain ⟨⟨hl, names, hs, hnd, ht⟩, hw⟩ := hw
    simp only [tr, sortDict, hs] at ho
    have hl' : names.length = vs.length := by rw [← hl, strings_eq hs]; simp
    have hvs : okVs env st.mem (trs f (readLink env sub st) vs) := by
      simp only [mkDict, okV] at ho
      rw [okVs_iff] at ho ⊢
      intro v hv
      apply ho v
      have p := (sortFields_perm (names.zip (trs f (readLink env sub st) vs))).map Prod.snd
      rw [p.mem_iff, List.map_snd_zip]
      · exact hv
      · rw [trs_eq]; simp [hl']
    have ih := decs_all env sub st f T vs hw hn hvs
    simp only [tree, sortDict, hs, tr]
    rw [trees_eq, trs_eq, ← onSnd_zip, onSnd_sort, dec_mkDict (loadAndIndex env sub) st (tree T) (tr f (readLink env sub st))]
    · have : Dict.get? (onSnd (tr f (readLink env sub st)) (sortFields (names.zip vs))) "type" = none := by
        rw [Dict.get?_eq_none_iff]
        unfold Dict.keys
        rw [onSnd_fst, ((sortFields_perm _).map Prod.fst).mem_iff, List.map_fst_zip]
        · exact ht
        · omega
      simp only [loadAndIndex, this]
      rw [← onSnd_sort, onSnd_zip]
    · intro e he
      apply ih
      have := (sortFields_perm (names.zip vs)).mem_iff.1 he
      exact (List.of_mem_zip this).2
  | obj t ns vs =>
    simp only [wf, noRef] at hw hn
    obtain ⟨hl, hw⟩ := hw
    simp only [tr, okV] at ho
    obtain ⟨hst, hvs⟩ := ho
    have ih := decs_all env sub st f T vs hw hn hvs
    obtain ⟨c, hc, hns, hlen, _⟩ := hst
    have hnn := table_names t c hc
    rw [← hns] at hnn
    simp only [tree, tr]
    have e1 : (("type", V.str t) :: ns.zip (trees T vs)) = onSnd (tree T) (("type", V.str t) :: ns.zip vs) := by
      rw [trees_eq, ← onSnd_zip]; simp [onSnd, tree]
    rw [e1, onSnd_sort, dec_mkDict (loadAndIndex env sub) st (tree T) (tr f (readLink env sub st))]
    · rw [← onSnd_sort]
      have e2 : onSnd (tr f (readLink env sub st)) (("type", V.str t) :: ns.zip vs) =
          ("type", V.str t) :: ns.zip (trs f (readLink env sub st) vs) := by
        rw [trs_eq, ← onSnd_zip]; simp [onSnd, tr]
      rw [e2]
      have hnd : ((("type", V.str t) :: ns.zip (trs f (readLink env sub st) vs)).map Prod.fst).Nodup := by
        rw [List.map_cons, List.map_fst_zip (by rw [trs_eq]; simp; omega)]
        exact List.nodup_cons.2 ⟨hnn.2.1, hnn.1⟩
      have hp := sortFields_perm (("type", V.str t) :: ns.zip (trs f (readLink env sub st) vs))
      have hnd' := (hp.map Prod.fst).nodup_iff.2 hnd
      have hty : Dict.get? (sortFields (("type", V.str t) :: ns.zip (trs f (readLink env sub st) vs))) "type" = some (.str t) := by
        rw [get?_perm hp hnd']; simp [Dict.get?]
      have hself : Dict.get? (sortFields (("type", V.str t) :: ns.zip (trs f (readLink env sub st) vs))) "self" = none := by
        rw [Dict.get?_eq_none_iff]
        unfold Dict.keys
        rw [(hp.map Prod.fst).mem_iff, List.map_cons, List.map_fst_zip (by rw [trs_eq]; simp; omega)]
        simp [hnn.2.2]
      simp only [loadAndIndex, hty, hself, loadAs, ne_eq, not_true_eq_false, if_false]
      have hne : t ≠ "link_by_uid" := by
        rintro rfl
        exact table_not_link c hc
      rw [if_neg hne, hc]
      simp only
      rw [construct_again env st.mem t ns (trs f (readLink env sub st) vs) c hc
        (by exact ⟨c, hc, hns, hlen, by assumption⟩)]
      intro n v hv
      rw [Dict.get?_erase hnd', if_neg (by
        rintro rfl
        exact hnn.2.1 (List.of_mem_zip hv).1), get?_perm hp hnd']
      apply Dict.get?_of_mem hnd
      exact List.mem_cons_of_mem _ hv
    · intro e he
      have := (sortFields_perm _).mem_iff.1 he
      rcases List.mem_cons.1 this with rfl | h
      · simp [tree, tr, dec]
      · exact ih _ (List.of_mem_zip h).2
  | ref o => simp [noRef] at hn
  | link s i =>
    simp [tree, tr, dec, mkDict, strings, decs, loadAndIndex, Dict.get?, Dict.erase, loadAs, readLink]
  | _ => simp [tree, tr, dec]
termination_by structural v
theorem decs_trees (env : Env) (sub : Bool) (st : Loading) (f T : Nat → V) (l : List V) (hw : wfs l) (hn : noRefs l)
    (ho : okVs env st.mem (trs f (readLink env sub st) l)) :
    decs (loadAndIndex env sub) (trees T l) st = .ok (trs f (readLink env sub st) l, st) := by
  cases l with
  | nil => rfl
  | cons v vs =>
    simp only [wfs, noRefs, trs, okVs] at hw hn ho
    simp [trees, decs, trs, dec_tree env sub st f T v hw.1 hn.1 ho.1, decs_trees env sub st f T vs hw.2 hn.2 ho.2]
termination_by structural l
theorem decs_all (env : Env) (sub : Bool) (st : Loading) (f T : Nat → V) (l : List V) (hw : wfs l) (hn : noRefs l)
    (ho : okVs env st.mem (trs f (readLink env sub st) l)) :
    ∀ v ∈ l, dec (loadAndIndex env sub) (tree T v) st = .ok (tr f (readLink env sub st) v, st) := by
  cases l with
  | nil => simp
  | cons v vs =>
    simp only [wfs, noRefs, trs, okVs] at hw hn ho
    intro w hmem
    rcases List.mem_cons.1 hmem with h | h
    · rw [h]; exact dec_tree env sub st f T v hw.1 hn.1 ho.1
    · exact decs_all env sub st f T vs hw.2 hn.2 ho.2 w h
termination_by structural l
end

end Verif.Json
