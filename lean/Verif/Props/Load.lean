import Verif.Props.Json
/-!
# C45: loading records

What is loaded is a tree, read record by record. The theorems are about the state after any number of records has been read, starting
from nothing, whatever the records are.
-/

set_option linter.unusedSimpArgs false
set_option linter.unusedVariables false
set_option linter.unusedSectionVars false

namespace Verif.Json
open Verif.Py Verif.Value Verif.Schema

/-! ## Invariants of reading -/

section
variable {σ : Type} (hook : List (String × V) → σ → Except PyErr (V × σ)) (P : σ → Prop)
  (hP : ∀ d s w s', hook d s = .ok (w, s') → P s → P s')
include hP

mutual
/-- what every call of the hook keeps is kept by reading -/
theorem dec_keeps (v : V) (s s' : σ) (w : V) (h : dec hook v s = .ok (w, s')) (hs : P s) : P s' := by
  cases v with
  | list l =>
    simp only [dec] at h
    split at h
    · cases h
    · rename_i l' s1 hl
      cases h
      exact decs_keeps l s s' l' hl hs
  | dict ks vs =>
    simp only [dec] at h
    split at h
    · cases h
    · split at h
      · cases h
      · rename_i vs' s1 hl
        exact hP _ _ _ _ h (decs_keeps vs s s1 vs' hl hs)
  | _ => simp [dec] at h; exact h.2 ▸ hs
termination_by structural v
theorem decs_keeps (l : List V) (s s' : σ) (w : List V) (h : decs hook l s = .ok (w, s')) (hs : P s) : P s' := by
  cases l with
  | nil => simp [decs] at h; exact h.2 ▸ hs
  | cons v vs =>
    simp only [decs] at h
    split at h
    · cases h
    · rename_i v' s1 hv
      split at h
      · cases h
      · rename_i vs' s2 hvs
        cases h
        exact decs_keeps vs s1 s' vs' hvs (dec_keeps v s s1 v' hv hs)
termination_by structural l
end
end

/-! ## New entities -/

theorem setField_length (m : Mem) (o : Nat) (a : String) (f : V → V) : (setField m o a f).length = m.length := by
  unfold setField
  split <;> simp

theorem setField_get (m : Mem) (o : Nat) (a : String) (f : V → V) (p : Nat) :
    ((setField m o a f)[p]?).map (fun x => (x.cls, x.uids)) = (m[p]?).map (fun x => (x.cls, x.uids)) := by
  unfold setField
  split
  · rename_i x hx
    by_cases e : o = p
    · subst e
      have hlt : o < m.length := (List.getElem?_eq_some_iff.1 hx).1
      rw [List.getElem?_set_self hlt, hx]
      rfl
    · rw [List.getElem?_set_ne e]
  · rfl

theorem linkBack_length (m : Mem) (o : Nat) (x : EObj) : (linkBack m o x).length = m.length := by
  unfold linkBack
  split
  · split
    · exact setField_length _ _ _ _
    · rfl
  · rfl

theorem linkBack_get (m : Mem) (o : Nat) (x : EObj) (p : Nat) :
    ((linkBack m o x)[p]?).map (fun x => (x.cls, x.uids)) = (m[p]?).map (fun x => (x.cls, x.uids)) := by
  unfold linkBack
  split
  · split
    · exact setField_get _ _ _ _ _
    · rfl
  · rfl

theorem ingredientNames_get {d : List (String × V)} {m m' : Mem} {o : Nat} (h : ingredientNames d m o = .ok m') :
    m'.length = m.length ∧ ∀ p : Nat, (m'[p]?).map (fun x => (x.cls, x.uids)) = (m[p]?).map (fun x => (x.cls, x.uids)) := by
  simp only [ingredientNames] at h
  have h1 : ∀ (v : V), (match v with | V.none => m | v => setField m o "_name" (fun _ => v)).length = m.length ∧
      ∀ p : Nat, ((match v with | V.none => m | v => setField m o "_name" (fun _ => v))[p]?).map (fun x => (x.cls, x.uids)) =
        (m[p]?).map (fun x => (x.cls, x.uids)) := by
    intro v
    split
    · exact ⟨rfl, fun _ => rfl⟩
    · exact ⟨setField_length _ _ _ _, fun p => setField_get _ _ _ _ p⟩
  split at h
  · cases h
    exact h1 _
  · split at h
    · cases h
    · cases h
      refine ⟨by rw [setField_length]; exact (h1 _).1, fun p => ?_⟩
      rw [setField_get]
      exact (h1 _).2 p

/-- a new entity has the next number; the others keep their classes and uids -/
theorem fromDictE_out {env : Env} {m : Mem} {c : ECls} {d : List (String × V)} {o : Nat} {m' : Mem}
    (h : fromDictE env m c d = .ok (o, m')) :
    o = m.length ∧ m'.length = m.length + 1 ∧ (∀ p < m.length, (m'[p]?).map (fun x => (x.cls, x.uids)) = (m[p]?).map (fun x => (x.cls, x.uids))) ∧
      ∃ x, m'[o]? = some x ∧ x.cls = c ∧ convUids env ((Dict.get? d "uids").getD .none) = .ok x.uids := by
  have hc : ∀ o m', constructE env m c d = .ok (o, m') → o = m.length ∧ m'.length = m.length + 1 ∧
      (∀ p < m.length, (m'[p]?).map (fun x => (x.cls, x.uids)) = (m[p]?).map (fun x => (x.cls, x.uids))) ∧
      ∃ x, m'[o]? = some x ∧ x.cls = c ∧ convUids env ((Dict.get? d "uids").getD .none) = .ok x.uids := by
    intro o m' h
    unfold constructE at h
    split at h
    · cases h
    · rename_i x hx
      cases h
      have hxu : x.cls = c ∧ convUids env ((Dict.get? d "uids").getD .none) = .ok x.uids := by
        unfold newEntity at hx
        split at hx
        · cases hx
        · split at hx
          · cases hx
          · split at hx
            · cases hx
            · cases hx
              exact ⟨rfl, by assumption⟩
      refine ⟨rfl, by rw [linkBack_length]; simp, ?_, ?_⟩
      · intro p hp
        rw [linkBack_get, List.getElem?_append_left hp]
      · have := linkBack_get (m ++ [x]) m.length x m.length
        rw [List.getElem?_append_right (Nat.le_refl _)] at this
        simp at this
        obtain ⟨y, hy, e1, e2⟩ := this
        exact ⟨y, hy, by rw [e1]; exact hxu.1, by rw [e2]; exact hxu.2⟩
  unfold fromDictE at h
  split at h
  · cases h
  · rename_i o1 m1 h1
    obtain ⟨a1, a2, a3, x, a4, a5, a6⟩ := hc o1 m1 h1
    split at h
    · split at h
      · cases h
      · rename_i m2 h2
        cases h
        obtain ⟨b1, b2⟩ := ingredientNames_get h2
        refine ⟨a1, by omega, fun p hp => (b2 p).trans (a3 p hp), ?_⟩
        have := b2 o
        rw [a4] at this
        simp at this
        obtain ⟨y, hy, e1, e2⟩ := this
        exact ⟨y, hy, by rw [e1]; exact a5, by rw [e2]; exact a6⟩
    · cases h
      exact ⟨a1, a2, a3, x, a4, a5, a6⟩

/-! ## The index -/

/-- entity `o` carries the id `i` in a scope that is `s` in lower case -/
def Carries (lower : String → String) (m : Mem) (o : Nat) (s i : String) : Prop :=
  ∃ x, m[o]? = some x ∧ ∃ scope, (scope, i) ∈ x.uids ∧ lower scope = s

open Classical in
theorem get?_addIndex (env : Env) (o : Nat) (us : List (String × String)) (idx : Dict (String × String) Nat) (s i : String) :
    Dict.get? (addIndex env o us idx) (s, i) =
      if ∃ scope, (scope, i) ∈ us ∧ env.lower scope = s then some o else Dict.get? idx (s, i) := by
  induction us generalizing idx with
  | nil => simp [addIndex]
  | cons u us ih =>
    obtain ⟨a, b⟩ := u
    simp only [addIndex, ih, Dict.get?_set]
    by_cases h1 : ∃ scope, (scope, i) ∈ us ∧ env.lower scope = s
    · rw [if_pos h1, if_pos]
      obtain ⟨sc, h2, h3⟩ := h1
      exact ⟨sc, by simp [h2], h3⟩
    · rw [if_neg h1]
      by_cases h2 : (env.lower a, b) = (s, i)
      · rw [if_pos h2, if_pos]
        cases h2
        exact ⟨a, by simp, rfl⟩
      · rw [if_neg h2, if_neg]
        rintro ⟨sc, h3, h4⟩
        rcases List.mem_cons.1 h3 with h3 | h3
        · cases h3
          exact h2 (by rw [h4])
        · exact h1 ⟨sc, h3, h4⟩

/-- The index leads from each id to the entity loaded last among those that carry it; `n` entities were there before. -/
def Indexed (lower : String → String) (n : Nat) (st : Loading) : Prop :=
  n ≤ st.mem.length ∧ ∀ s i o, Dict.get? st.index (s, i) = some o ↔
    n ≤ o ∧ Carries lower st.mem o s i ∧ ∀ o', o < o' → ¬ Carries lower st.mem o' s i

theorem carries_lt {lower : String → String} {m : Mem} {o : Nat} {s i : String} (h : Carries lower m o s i) : o < m.length := by
  obtain ⟨x, hx, _⟩ := h
  exact (List.getElem?_eq_some_iff.1 hx).1

theorem carries_congr {lower : String → String} {m m' : Mem} {o : Nat}
    (h : (m'[o]?).map (fun x => (x.cls, x.uids)) = (m[o]?).map (fun x => (x.cls, x.uids))) (s i : String) :
    Carries lower m' o s i ↔ Carries lower m o s i := by
  unfold Carries
  cases e : m[o]? <;> cases e' : m'[o]? <;> simp [e, e'] at h ⊢
  rw [h.2]

theorem hook_indexed (env : Env) (sub : Bool) (n : Nat) (d : List (String × V)) (st st' : Loading) (w : V)
    (h : loadAndIndex env sub d st = .ok (w, st')) (hi : Indexed env.lower n st) : Indexed env.lower n st' := by
  unfold loadAndIndex at h
  split at h
  · cases h; exact hi
  · split at h
    · cases h
    · unfold loadAs at h
      split at h
      · split at h <;> cases h
        exact hi
      · split at h
        · split at h <;> cases h
          exact hi
        · split at h
          · cases h
          · split at h
            · cases h
            · rename_i o m' ho
              cases h
              obtain ⟨rfl, hl, hold, x, hx, _, _⟩ := fromDictE_out ho
              refine ⟨by have := hi.1; simp; omega, ?_⟩
              intro s i o
              simp only
              rw [get?_addIndex, hx]
              simp only [Option.map_some, Option.getD_some]
              have hnew : ∀ s i, Carries env.lower m' st.mem.length s i ↔ ∃ scope, (scope, i) ∈ x.uids ∧ env.lower scope = s := by
                intro s i
                constructor
                · rintro ⟨y, hy, h⟩
                  rw [hx] at hy
                  cases hy
                  exact h
                · intro h
                  exact ⟨x, hx, h⟩
              have hle : ∀ o s i, Carries env.lower m' o s i → o ≤ st.mem.length := by
                intro o s i h
                have := carries_lt h
                omega
              split
              · rename_i hc
                rw [← hnew] at hc
                constructor
                · intro e
                  cases e
                  refine ⟨hi.1, hc, ?_⟩
                  intro o' ho' hc'
                  have := hle o' s i hc'
                  omega
                · rintro ⟨_, hco, hmax⟩
                  have h1 := hle o s i hco
                  by_cases e : o = st.mem.length
                  · rw [e]
                  · exact absurd hc (hmax _ (by omega))
              · rename_i hc
                rw [← hnew] at hc
                rw [hi.2]
                constructor
                · rintro ⟨h1, h2, h3⟩
                  refine ⟨h1, (carries_congr (hold o (carries_lt h2)) s i).2 h2, ?_⟩
                  intro o' ho' hc'
                  have h4 := hle o' s i hc'
                  by_cases e : o' = st.mem.length
                  · rw [e] at hc'; exact hc hc'
                  · exact h3 o' ho' ((carries_congr (hold o' (by omega)) s i).1 hc')
                · rintro ⟨h1, h2, h3⟩
                  have h4 := hle o s i h2
                  have h5 : o ≠ st.mem.length := fun e => hc (e ▸ h2)
                  refine ⟨h1, (carries_congr (hold o (by omega)) s i).1 h2, ?_⟩
                  intro o' ho' hc'
                  exact h3 o' ho' ((carries_congr (hold o' (carries_lt hc')) s i).2 hc')
  · cases h

/-- After reading any records, a link is replaced by the entity read last among those that carry its id (scopes compared in lower case);
if none of the entities read so far does, the link is left as it is. -/
theorem C45_links (env : Env) (m : Mem) (records : List V) (vs : List V) (st : Loading)
    (h : decs (loadAndIndex env true) records { mem := m, index := [] } = .ok (vs, st)) (s i : String) :
    ∃ w, dec (loadAndIndex env true) (mkDict [("id", .str i), ("scope", .str s), ("type", .str "link_by_uid")]) st = .ok (w, st) ∧
      (∀ o, w = .ref o ↔ m.length ≤ o ∧ Carries env.lower st.mem o (env.lower s) i ∧
        ∀ o', o < o' → ¬ Carries env.lower st.mem o' (env.lower s) i) ∧
      ((∀ o, m.length ≤ o → ¬ Carries env.lower st.mem o (env.lower s) i) → w = .link s i) := by
  have hst : Indexed env.lower m.length st := by
    refine decs_keeps (loadAndIndex env true) (Indexed env.lower m.length) (fun d s w s' h hi => hook_indexed env true _ d s s' w h hi)
      records _ st vs h ⟨Nat.le_refl _, ?_⟩
    intro s i o
    simp only [Dict.get?_nil, reduceCtorEq, false_iff, not_and]
    intro h1 h2
    have := carries_lt h2
    omega
  refine ⟨loadLink env true s i st, ?_, ?_, ?_⟩
  · simp [dec, mkDict, strings, decs, loadAndIndex, Dict.get?, Dict.erase, loadAs]
  · intro o
    rw [← hst.2]
    unfold loadLink
    rw [if_pos rfl]
    split
    · rename_i o' ho'
      rw [ho']
      simp
    · rename_i hn
      rw [hn]
      simp
  · intro hn
    unfold loadLink
    rw [if_pos rfl]
    split
    · rename_i o' ho'
      rw [hst.2] at ho'
      exact absurd ho'.2.1 (hn o' ho'.1)
    · rfl

/-! ## Types and fields -/

/-- The values of `typ` that are registered (all classes of gemd.entity). -/
def registered : List String :=
  ["property", "condition", "parameter", "property_and_conditions", "file_link", "performed_source", "nominal_real", "uniform_real",
   "normal_real", "nominal_integer", "uniform_integer", "nominal_categorical", "discrete_categorical", "nominal_composition",
   "empirical_formula", "smiles", "inchi", "real_bounds", "integer_bounds", "categorical_bounds", "composition_bounds",
   "molecular_structure_bounds", "link_by_uid", "property_template", "condition_template", "parameter_template", "material_template",
   "process_template", "measurement_template", "material_spec", "process_spec", "ingredient_spec", "measurement_spec", "material_run",
   "process_run", "ingredient_run", "measurement_run"]

/-- A record whose type is not registered raises TypeError, whatever its fields are. -/
theorem C45_unknown_type (env : Env) (sub : Bool) (fs : List (String × V)) (st st' : Loading) (vs : List V) (t : V)
    (hv : decs (loadAndIndex env sub) (fs.map Prod.snd) st = .ok (vs, st')) (ht : Dict.get? ((fs.map Prod.fst).zip vs) "type" = some t)
    (hu : ∀ s ∈ registered, t ≠ .str s) : dec (loadAndIndex env sub) (mkDict fs) st = .error .typeError := by
  simp only [mkDict, dec, mkDict_keys, hv]
  unfold loadAndIndex
  rw [ht]
  cases t with
  | str t =>
    have hu' : t ∉ registered := fun h => hu t h rfl
    simp only
    split
    · rfl
    · unfold loadAs
      have h1 : t ≠ "link_by_uid" := by rintro rfl; exact hu' (by decide +kernel)
      have h2 : Dict.get? table t = none := by
        rw [Dict.get?_eq_none_iff]
        intro hm
        have all : ∀ s ∈ Dict.keys table, s ∈ registered := by decide +kernel
        exact hu' (all t hm)
      have h3 : eclsOf t = none := by
        unfold eclsOf
        rw [List.find?_eq_none]
        intro c hc
        simp only [decide_eq_true_eq]
        rintro rfl
        have all : ∀ c ∈ [ECls.propertyTemplate, .conditionTemplate, .parameterTemplate, .materialTemplate, .processTemplate, .measurementTemplate,
            .materialSpec, .processSpec, .ingredientSpec, .measurementSpec, .materialRun, .processRun, .ingredientRun, .measurementRun],
            Equal.typ c ∈ registered := by decide +kernel
        exact hu' (all c hc)
      rw [if_neg h1, h2, h3]
  | _ => rfl

/-- A dictionary without a type is returned as it is, with its values read. -/
theorem C45_no_type (env : Env) (sub : Bool) (fs : List (String × V)) (st st' : Loading) (vs : List V) (hn : "type" ∉ fs.map Prod.fst)
    (hv : decs (loadAndIndex env sub) (fs.map Prod.snd) st = .ok (vs, st')) :
    dec (loadAndIndex env sub) (mkDict fs) st = .ok (mkDict ((fs.map Prod.fst).zip vs), st') := by
  simp only [mkDict, dec, mkDict_keys, hv]
  unfold loadAndIndex
  have : Dict.get? ((fs.map Prod.fst).zip vs) "type" = none := by
    rw [Dict.get?_eq_none_iff]
    intro h
    obtain ⟨v, hv⟩ := Dict.mem_keys.1 h
    exact hn (List.of_mem_zip hv).1
  rw [this]
  rfl

/-- the names that the constructor of the class with this `typ` takes, with those `IngredientRun.from_dict` takes -/
def arguments (t : String) : List String :=
  if t = "link_by_uid" then ["scope", "id"]
  else match Dict.get? table t with
    | some c => c.args.map Arg.name
    | none => match eclsOf t with
      | some c => "uids" :: (eargs c).map EArg.name ++ (if c = .ingredientRun then ["name", "labels"] else [])
      | none => []

theorem get?_append_not {d extra : List (String × V)} {k : String} (h : k ∉ extra.map Prod.fst) :
    Dict.get? (d ++ extra) k = Dict.get? d k := by
  induction d with
  | nil =>
    simp only [List.nil_append, Dict.get?_nil]
    exact Dict.get?_eq_none_iff.2 h
  | cons e d ih =>
    simp only [List.cons_append, Dict.get?]
    split
    · rfl
    · exact ih

theorem bindArgs_congr {d d' : List (String × V)} {args : List Arg} (h : ∀ a ∈ args, Dict.get? d a.name = Dict.get? d' a.name) :
    bindArgs d args = bindArgs d' args := by
  induction args with
  | nil => rfl
  | cons a as ih =>
    simp only [bindArgs, given]
    rw [h a (by simp), ih (fun b hb => h b (by simp [hb]))]

theorem loadAs_congr (env : Env) (sub : Bool) (t : String) (d d' : List (String × V)) (st : Loading)
    (h : ∀ n ∈ arguments t, Dict.get? d n = Dict.get? d' n) : loadAs env sub t d st = loadAs env sub t d' st := by
  unfold loadAs
  unfold arguments at h
  split at h
  · rename_i e
    rw [if_pos e, if_pos e, h "scope" (by simp), h "id" (by simp)]
  · rename_i e
    rw [if_neg e, if_neg e]
    cases hc : Dict.get? table t with
    | some c =>
      rw [hc] at h
      simp only at h ⊢
      unfold construct
      rw [bindArgs_congr (d := d) (d' := d') (fun a ha => h a.name (List.mem_map.2 ⟨a, ha, rfl⟩))]
    | none =>
      rw [hc] at h
      simp only at h ⊢
      cases he : eclsOf t with
      | none => rfl
      | some c =>
        rw [he] at h
        simp only [List.cons_append, List.mem_cons, List.mem_append, List.mem_map] at h ⊢
        have hb : bindArgs d ((eargs c).map EArg.arg) = bindArgs d' ((eargs c).map EArg.arg) := by
          apply bindArgs_congr
          intro a ha
          obtain ⟨b, hb, rfl⟩ := List.mem_map.1 ha
          exact h _ (.inr (.inl ⟨b, hb, rfl⟩))
        have hu := h "uids" (.inl rfl)
        have hne : newEntity env st.mem c d = newEntity env st.mem c d' := by
          unfold newEntity
          rw [hb, hu]
        have : fromDictE env st.mem c d = fromDictE env st.mem c d' := by
          unfold fromDictE constructE
          rw [hne]
          split
          · rfl
          · split
            · rename_i hi
              have h1 := h "name" (.inr (.inr (by simp [hi])))
              have h2 := h "labels" (.inr (.inr (by simp [hi])))
              simp only [ingredientNames, h1, h2]
            · rfl
        rw [this]

/-- Fields that are not constructor arguments are ignored ... -/
theorem C45_extra_fields_partial (env : Env) (sub : Bool) (d extra : List (String × V)) (st : Loading) (t : String)
    (hd : ((d ++ extra).map Prod.fst).Nodup) (ht : Dict.get? d "type" = some (.str t))
    (he : ∀ n ∈ extra.map Prod.fst, n ∉ arguments t ∧ n ≠ "self") : loadAndIndex env sub (d ++ extra) st = loadAndIndex env sub d st := by
  have hty : "type" ∉ extra.map Prod.fst := by
    intro h
    have h1 := Dict.mem_keys.2 ⟨_, Dict.mem_of_get? ht⟩
    rw [List.map_append, List.nodup_append] at hd
    exact hd.2.2 "type" h1 "type" h rfl
  have hself : "self" ∉ extra.map Prod.fst := fun h => (he _ h).2 rfl
  unfold loadAndIndex
  rw [get?_append_not hty, ht]
  simp only
  rw [get?_append_not hself]
  split
  · rfl
  · apply loadAs_congr
    intro n hn
    have hd' : (d.map Prod.fst).Nodup := by
      rw [List.map_append, List.nodup_append] at hd
      exact hd.1
    rw [Dict.get?_erase hd, Dict.get?_erase hd']
    split
    · rfl
    · exact get?_append_not (fun h => (he n h).1 hn)

/-- ... except one called "self", which is a TypeError. -/
theorem C45_self_field_counterexample : ∃ (d : List (String × V)) (st : Loading) (w : V × Loading),
    "self" ∉ arguments "file_link" ∧ loadAndIndex plainEnv true d st = .ok w ∧
    loadAndIndex plainEnv true (d ++ [("self", .none)]) st = .error .typeError := by
  refine ⟨[("filename", .str "f"), ("type", .str "file_link"), ("url", .str "u")], ⟨[], []⟩, _, by decide +kernel, rfl, rfl⟩

/-- the record of a process template -/
def record (name id : String) : V :=
  mkDict [("name", .str name), ("type", .str "process_template"), ("uids", mkDict [("id", .str id)])]

/-- Two records with the same id yield two objects. -/
theorem C45_same_id_counterexample : ∃ m, loads plainEnv []
      (mkDict [("context", .list [record "a" "1", record "b" "1"]), ("object", .list [record "c" "1"])]) = .ok (.list [.ref 2], m) ∧
    m.map EObj.uids = [[("id", "1")], [("id", "1")], [("id", "1")]] := by
  refine ⟨_, rfl, by decide +kernel⟩

/-- A link between the two records leads to the first, a link after them to the second. -/
theorem C45_same_id_links_counterexample : ∃ m, loads plainEnv []
      (mkDict [("context", .list [record "a" "1"]), ("object", .list [tree .ref (.link "id" "1"), record "b" "1", tree .ref (.link "id" "1")])]) =
    .ok (.list [.ref 0, .ref 1, .ref 1], m) := by
  refine ⟨_, rfl⟩

/-- The first clause of C45, with what the code does instead: every record that is an entity makes a new object, whatever the index holds.
Links are shared (`C45_links`), records are not. -/
theorem C45_records_fresh (env : Env) (sub : Bool) (t : String) (c : ECls) (ht : eclsOf t = some c) (d : List (String × V)) (st st' : Loading)
    (w : V) (hd : Dict.get? d "type" = some (.str t)) (h : loadAndIndex env sub d st = .ok (w, st')) :
    w = .ref st.mem.length ∧ st'.mem.length = st.mem.length + 1 := by
  have h1 : ∀ c ∈ [ECls.propertyTemplate, .conditionTemplate, .parameterTemplate, .materialTemplate, .processTemplate, .measurementTemplate,
      .materialSpec, .processSpec, .ingredientSpec, .measurementSpec, .materialRun, .processRun, .ingredientRun, .measurementRun],
      Dict.get? table (Equal.typ c) = none ∧ Equal.typ c ≠ "link_by_uid" := by decide +kernel
  have h2 : Equal.typ c = t := by simpa using List.find?_some ht
  have h3 := h1 c (List.mem_of_find?_eq_some ht)
  rw [h2] at h3
  unfold loadAndIndex at h
  rw [hd] at h
  simp only at h
  split at h
  · cases h
  · simp only [loadAs, if_neg h3.2, h3.1, ht] at h
    split at h
    · cases h
    · rename_i o' m' ho
      cases h
      obtain ⟨rfl, hl, _⟩ := fromDictE_out ho
      exact ⟨rfl, hl⟩

/-- the hypotheses of `C45_links` are met: after reading two templates, a link to the first is resolved -/
example : ∃ vs st, decs (loadAndIndex plainEnv true) [record "a" "1", record "b" "2"] ⟨[], []⟩ = .ok (vs, st) ∧
    dec (loadAndIndex plainEnv true) (mkDict [("id", .str "1"), ("scope", .str "id"), ("type", .str "link_by_uid")]) st = .ok (.ref 0, st) ∧
    dec (loadAndIndex plainEnv true) (mkDict [("id", .str "3"), ("scope", .str "id"), ("type", .str "link_by_uid")]) st = .ok (.link "id" "3", st) :=
  ⟨_, _, rfl, rfl, rfl⟩

/-- the hypotheses of `C45_extra_fields_partial` are met -/
example : (([("filename", V.str "f"), ("type", V.str "file_link"), ("url", V.str "u")] ++ [("size", V.int 3)]).map Prod.fst).Nodup ∧
    Dict.get? [("filename", V.str "f"), ("type", V.str "file_link"), ("url", V.str "u")] "type" = some (.str "file_link") ∧
    "size" ∉ arguments "file_link" := by decide +kernel

/-- the hypotheses of `C45_unknown_type` are met -/
example : ∀ s ∈ registered, V.str "sample" ≠ .str s := by decide +kernel

end Verif.Json
