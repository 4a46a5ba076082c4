import Verif.Model.Builders
import Verif.Props.Instance
/-!
# C50: make_node and add_edge
-/

set_option linter.unusedSimpArgs false
set_option linter.unusedVariables false

namespace Verif.Builders
open Verif.Py Verif.Value Verif.Schema Verif.Json Verif.Instance

/-! ### Specification -/

/-- what there was is as it was -/
def Unchanged (m m' : Mem) : Prop := ∀ i, i < m.length → m'[i]? = m[i]?

/-- `o` is an entity of class `c` with these attributes -/
def Is (m : Mem) (o : Nat) (c : ECls) (attrs : List (String × V)) : Prop := cls m o = some c ∧ ∀ a ∈ attrs, peek m o a.1 = some a.2

/-- None, a link, or an entity of class `c` -/
def Points (m : Mem) (c : ECls) (v : V) : Prop := v = .none ∨ (∃ s i, v = .link s i) ∨ ∃ q, v = .ref q ∧ cls m q = some c

/-! ### New entities -/

theorem target_ok {m : Mem} {c : ECls} {v : V} (h : Points m c v) : convTarget m [c] v = .ok v := by
  unfold convTarget
  rw [if_pos]
  rcases h with rfl | ⟨s, i, rfl⟩ | ⟨q, rfl, h⟩
  · exact .inl rfl
  · exact .inr (.inl rfl)
  · exact .inr (.inr (isCls_iff.2 h))

theorem target_error {m : Mem} {c : ECls} {v : V} (h : ¬ Points m c v) : convTarget m [c] v = .error .typeError := by
  cases hc : convTarget m [c] v with
  | error e =>
    unfold convTarget at hc
    split at hc <;> cases hc
    rfl
  | ok w =>
    exfalso
    have : convTarget m [c] v = .ok v := by
      unfold convTarget at hc ⊢
      split at hc
      · rename_i h'
        rw [if_pos h']
      · cases hc
    exact h (target_of this)

/-- the fields of a new ProcessSpec -/
def psFields (n t : V) : List (String × V) := [("_tags", .list []), ("notes", .none), ("_name", n), ("_file_links", .list []), ("_template", t), ("_parameters", .list []),
  ("_conditions", .list []), ("_output_material", .none), ("_ingredients", .list [])]
/-- the fields of a new ProcessRun -/
def prFields (n s : V) : List (String × V) := [("_tags", .list []), ("notes", .none), ("_name", n), ("_file_links", .list []), ("_spec", s), ("_conditions", .list []),
  ("_parameters", .list []), ("_source", .none), ("_ingredients", .list []), ("_output_material", .none)]
/-- the fields of a new MaterialSpec -/
def msFields (n p t : V) : List (String × V) := [("_tags", .list []), ("notes", .none), ("_name", n), ("_file_links", .list []), ("_template", t), ("_properties", .list []),
  ("_process", p)]
/-- the fields of a new MaterialRun -/
def mrFields (n p s : V) : List (String × V) := [("_tags", .list []), ("notes", .none), ("_name", n), ("_file_links", .list []), ("_spec", s), ("_process", p),
  ("_sample_type", .str "unknown"), ("_measurements", .list [])]
/-- the fields of a new IngredientSpec -/
def isFields (n p s : V) : List (String × V) := [("_tags", .list []), ("notes", .none), ("_name", n), ("_file_links", .list []), ("_mass_fraction", .none),
  ("_volume_fraction", .none), ("_number_fraction", .none), ("_absolute_quantity", .none), ("_labels", .list []), ("_material", s), ("_process", p)]
/-- the fields of a new IngredientRun -/
def irFields (s p mat : V) : List (String × V) := [("_tags", .list []), ("notes", .none), ("_file_links", .list []), ("_spec", s), ("_mass_fraction", .none),
  ("_volume_fraction", .none), ("_number_fraction", .none), ("_absolute_quantity", .none), ("_material", mat), ("_process", p), ("_name", .none), ("_labels", .none)]
/-- the fields of a new MeasurementSpec -/
def nsFields (n t : V) : List (String × V) := [("_tags", .list []), ("notes", .none), ("_name", n), ("_file_links", .list []), ("_template", t), ("_parameters", .list []),
  ("_conditions", .list [])]
/-- the fields of a new MeasurementRun -/
def nrFields (n s mat : V) : List (String × V) := [("_tags", .list []), ("notes", .none), ("_name", n), ("_file_links", .list []), ("_spec", s), ("_properties", .list []),
  ("_conditions", .list []), ("_parameters", .list []), ("_source", .none), ("_material", mat)]

/-- a string -/
def IsText (v : V) : Prop := ∃ s, v = .str s

theorem str_ok {v : V} (h : IsText v) : convStr .typeError v = .ok v := by
  obtain ⟨s, rfl⟩ := h
  rfl

theorem str_error {v : V} (h : ¬ IsText v) : convStr .typeError v = .error .typeError := by
  cases v <;> first | rfl | exact absurd ⟨_, rfl⟩ h

open Lean Elab Tactic in
/-- compute what a constructor does -/
macro "build" "[" ts:Lean.Parser.Tactic.simpLemma,* "]" : tactic => `(tactic|
  simp [newEntity, eargs, objectArgs, quantityArgs, conditionsArg, parametersArg, pointer, bindArgs, given, EArg.arg, Dict.get?, setAll, conv, convList, members, convOptObj,
    convUids, ownFields, $ts,*])

theorem ps_ok (env : Env) {m : Mem} {n t : V} (hn : IsText n) (ht : Points m .processTemplate t) :
    newEntity env m .processSpec [("name", n), ("template", t)] = .ok ⟨.processSpec, [], psFields n t⟩ := by
  build [target_ok ht, str_ok hn, psFields]

theorem ps_error (env : Env) {m : Mem} {n t : V} (h : ¬ (IsText n ∧ Points m .processTemplate t)) :
    newEntity env m .processSpec [("name", n), ("template", t)] = .error .typeError := by
  by_cases hn : IsText n
  · have ht := target_error fun ht => h ⟨hn, ht⟩
    build [ht, str_ok hn]
  · build [str_error hn]

theorem pr_ok (env : Env) {m : Mem} {n s : V} (hn : IsText n) (hs : Points m .processSpec s) :
    newEntity env m .processRun [("name", n), ("spec", s)] = .ok ⟨.processRun, [], prFields n s⟩ := by
  build [target_ok hs, str_ok hn, prFields]

theorem ms_ok (env : Env) {m : Mem} {n p t : V} (hn : IsText n) (hp : Points m .processSpec p) (ht : Points m .materialTemplate t) :
    newEntity env m .materialSpec [("name", n), ("process", p), ("template", t)] = .ok ⟨.materialSpec, [], msFields n p t⟩ := by
  build [target_ok hp, target_ok ht, str_ok hn, msFields]

theorem ms_error (env : Env) {m : Mem} {n p t : V} (h : ¬ (IsText n ∧ Points m .materialTemplate t)) :
    newEntity env m .materialSpec [("name", n), ("process", p), ("template", t)] = .error .typeError := by
  by_cases hn : IsText n
  · have ht := target_error fun ht => h ⟨hn, ht⟩
    build [ht, str_ok hn]
  · build [str_error hn]

theorem mr_ok {env : Env} (hs : Sane env) {m : Mem} {n p s : V} (hn : IsText n) (hp : Points m .processRun p) (ht : Points m .materialSpec s) :
    newEntity env m .materialRun [("name", n), ("process", p), ("spec", s)] = .ok ⟨.materialRun, [], mrFields n p s⟩ := by
  have hun : convEnum env sampleTypes (.str "unknown") = .ok (.str "unknown") := by
    rw [convEnum, hs.text "unknown" (by decide)]
    rfl
  build [target_ok hp, target_ok ht, str_ok hn, mrFields, hun]

theorem is_ok (env : Env) {m : Mem} {n p s : V} (hn : IsText n) (hp : Points m .processSpec p) (hs : Points m .materialSpec s) :
    newEntity env m .ingredientSpec [("name", n), ("process", p), ("material", s)] = .ok ⟨.ingredientSpec, [], isFields n p s⟩ := by
  build [target_ok hp, target_ok hs, str_ok hn, isFields]

theorem is_error (env : Env) {m : Mem} {n p s : V} (h : ¬ (IsText n ∧ Points m .materialSpec s ∧ Points m .processSpec p)) :
    newEntity env m .ingredientSpec [("name", n), ("process", p), ("material", s)] = .error .typeError := by
  by_cases hn : IsText n
  · by_cases hs : Points m .materialSpec s
    · have hp := target_error fun hp => h ⟨hn, hs, hp⟩
      build [target_ok hs, hp, str_ok hn]
    · build [target_error hs, str_ok hn]
  · build [str_error hn]

theorem ir_ok (env : Env) {m : Mem} {s p mat : V} (hs : Points m .ingredientSpec s) (hp : Points m .processRun p) (hm : Points m .materialRun mat) :
    newEntity env m .ingredientRun [("spec", s), ("process", p), ("material", mat)] = .ok ⟨.ingredientRun, [], irFields s p mat⟩ := by
  build [target_ok hp, target_ok hs, target_ok hm, irFields]

theorem ir_error (env : Env) {m : Mem} {s p mat : V} (hs : Points m .ingredientSpec s) (h : ¬ (Points m .materialRun mat ∧ Points m .processRun p)) :
    newEntity env m .ingredientRun [("spec", s), ("process", p), ("material", mat)] = .error .typeError := by
  by_cases hm : Points m .materialRun mat
  · have hp := target_error fun hp => h ⟨hm, hp⟩
    build [target_ok hs, hp, target_ok hm]
  · build [target_ok hs, target_error hm]

theorem ns_ok (env : Env) {m : Mem} {n t : V} (hn : IsText n) (ht : Points m .measurementTemplate t) :
    newEntity env m .measurementSpec [("name", n), ("template", t)] = .ok ⟨.measurementSpec, [], nsFields n t⟩ := by
  build [target_ok ht, str_ok hn, nsFields]

theorem ns_error (env : Env) {m : Mem} {n t : V} (h : ¬ (IsText n ∧ Points m .measurementTemplate t)) :
    newEntity env m .measurementSpec [("name", n), ("template", t)] = .error .typeError := by
  by_cases hn : IsText n
  · have ht := target_error fun ht => h ⟨hn, ht⟩
    build [ht, str_ok hn]
  · build [str_error hn]

theorem nr_ok (env : Env) {m : Mem} {n s mat : V} (hn : IsText n) (hs : Points m .measurementSpec s) (hm : Points m .materialRun mat) :
    newEntity env m .measurementRun [("name", n), ("spec", s), ("material", mat)] = .ok ⟨.measurementRun, [], nrFields n s mat⟩ := by
  build [target_ok hs, target_ok hm, str_ok hn, nrFields]

theorem nr_error (env : Env) {m : Mem} {n s mat : V} (hn : IsText n) (hs : Points m .measurementSpec s) (h : ¬ Points m .materialRun mat) :
    newEntity env m .measurementRun [("name", n), ("spec", s), ("material", mat)] = .error .typeError := by
  build [target_ok hs, target_error h, str_ok hn]

/-! ### Memory -/

/-- change an attribute of an entity -/
def upd (x : EObj) (a : String) (f : V → V) : EObj := { x with fields := x.fields.map (fun g => if g.1 = a then (g.1, f g.2) else g) }

theorem upd_get (x : EObj) (a : String) (f : V → V) (b : String) : Dict.get? (upd x a f).fields b = if b = a then (Dict.get? x.fields b).map f else Dict.get? x.fields b := by
  by_cases e : b = a
  · subst e
    rw [if_pos rfl]
    exact get?_map_same _ _ _
  · rw [if_neg e]
    exact get?_map_other _ a f b e

theorem set_last (m : Mem) (y : EObj) (t : Mem) (a : String) (f : V → V) : setField (m ++ y :: t) m.length a f = m ++ upd y a f :: t := by
  unfold setField
  simp [upd]

theorem set_last' (m : Mem) (y : EObj) (t : Mem) (k : Nat) (hk : k = m.length) (a : String) (f : V → V) : setField (m ++ y :: t) k a f = m ++ upd y a f :: t := by
  subst hk
  exact set_last m y t a f

theorem set_append {m : Mem} {q : Nat} (h : q < m.length) (t : Mem) (a : String) (f : V → V) : setField (m ++ t) q a f = setField m q a f ++ t := by
  unfold setField
  rw [List.getElem?_append_left h]
  cases hx : m[q]? with
  | none => rfl
  | some x => simp only [List.set_append_left _ _ h]

/-- what `v` points to, if anything, gets `w` in its attribute `back` -/
def answer (m : Mem) (v : V) (back : String) (w : V) : Mem := match v with
  | .ref q => setField m q back (if back = "_output_material" then fun _ => w else appendTo w)
  | _ => m

theorem answer_length (m : Mem) (v : V) (back : String) (w : V) : (answer m v back w).length = m.length := by
  cases v <;> simp [answer, setField_length]

theorem points_lt {m : Mem} {c : ECls} {v : V} (h : Points m c v) {q : Nat} (e : v = .ref q) : q < m.length := by
  rcases h with rfl | ⟨s, i, rfl⟩ | ⟨q', rfl, h⟩
  · cases e
  · cases e
  · cases e
    unfold cls at h
    cases hx : m[q]? with
    | none => simp [hx] at h
    | some x => exact (List.getElem?_eq_some_iff.1 hx).1

theorem answer_append {m : Mem} {v : V} (h : ∀ q, v = .ref q → q < m.length) (t : Mem) (back : String) (w : V) : answer (m ++ t) v back w = answer m v back w ++ t := by
  cases v <;> simp only [answer]
  exact set_append (h _ rfl) t _ _

theorem linkBack_eq {m : Mem} {o : Nat} {x : EObj} {there back : String} {v : V} (hb : backRef x.cls = some (there, back)) (hv : Dict.get? x.fields there = some v) :
    linkBack m o x = answer m v back (.ref o) := by
  unfold linkBack
  simp only [hb, hv]
  cases v <;> rfl

theorem new_ok {env : Env} {m : Mem} {c : ECls} {kwargs : List (String × V)} {x : EObj} (h : newEntity env m c kwargs = .ok x) (hb : backRef x.cls = none) :
    new env m c kwargs = (m ++ [x], .ok m.length) := by
  unfold new
  rw [h]
  simp only [linkBack, hb]

theorem new_link {env : Env} {m : Mem} {c : ECls} {kwargs : List (String × V)} {x : EObj} (h : newEntity env m c kwargs = .ok x) {there back : String} {v : V}
    (hb : backRef x.cls = some (there, back)) (hv : Dict.get? x.fields there = some v) (hl : ∀ q, v = .ref q → q < m.length) :
    new env m c kwargs = (answer m v back (.ref m.length) ++ [x], .ok m.length) := by
  unfold new
  rw [h]
  simp only [linkBack_eq hb hv, answer_append hl]

theorem new_error {env : Env} {m : Mem} {c : ECls} {kwargs : List (String × V)} {e : PyErr} (h : newEntity env m c kwargs = .error e)
    (hk : ∀ k ∈ kwargs, k.1 ≠ "sample_type") : new env m c kwargs = (m, .error e) := by
  unfold new
  rw [h]
  have : kwargs.filter (fun k => decide (k.1 ≠ "sample_type")) = kwargs := List.filter_eq_self.2 (by simpa using hk)
  rw [this]
  simp only [h]

/-! ### make_node -/

/-- the name of the process: as given, else that of its template, else that of the material -/
def NodeName (m : Mem) (name given template pn : V) : Prop :=
  (given ≠ .none ∧ pn = given) ∨ (given = .none ∧ template = .none ∧ pn = name) ∨ (given = .none ∧ ∃ t, template = .ref t ∧ peek m t "name" = some pn)

theorem Points.append {m : Mem} {c : ECls} {v : V} (h : Points m c v) (t : Mem) : Points (m ++ t) c v := by
  rcases h with rfl | ⟨s, i, rfl⟩ | ⟨q, rfl, h⟩
  · exact .inl rfl
  · exact .inr (.inl ⟨s, i, rfl⟩)
  · refine .inr (.inr ⟨q, rfl, ?_⟩)
    have hq := points_lt (.inr (.inr ⟨q, rfl, h⟩)) rfl
    unfold cls at h ⊢
    rw [List.getElem?_append_left hq]
    exact h

theorem points_new (m : Mem) (x : EObj) (t : Mem) : Points (m ++ x :: t) x.cls (.ref m.length) :=
  .inr (.inr ⟨_, rfl, by simp [cls]⟩)

theorem points_at {m : Mem} {q : Nat} {x : EObj} (h : m[q]? = some x) : Points m x.cls (.ref q) := .inr (.inr ⟨_, rfl, cls_of h⟩)

/-- `make_node`, when it has what it needs -/
theorem makeNode_ok {env : Env} (hs : Sane env) {m : Mem} {name given pt mt pn : V} (hp : processName m name given pt = .ok pn) (h1 : IsText name) (h2 : IsText pn)
    (h3 : Points m .processTemplate pt) (h4 : Points m .materialTemplate mt) :
    makeNode env name given pt mt m = (m ++ [⟨.processSpec, [], (upd ⟨.processSpec, [], psFields pn pt⟩ "_output_material" (fun _ => .ref (m.length + 2))).fields⟩,
      ⟨.processRun, [], (upd ⟨.processRun, [], prFields pn (.ref m.length)⟩ "_output_material" (fun _ => .ref (m.length + 3))).fields⟩,
      ⟨.materialSpec, [], msFields name (.ref m.length) mt⟩, ⟨.materialRun, [], mrFields name (.ref (m.length + 1)) (.ref (m.length + 2))⟩], .ok (m.length + 3)) := by
  let a : EObj := ⟨.processSpec, [], psFields pn pt⟩
  let b : EObj := ⟨.processRun, [], prFields pn (.ref m.length)⟩
  let c : EObj := ⟨.materialSpec, [], msFields name (.ref m.length) mt⟩
  let d : EObj := ⟨.materialRun, [], mrFields name (.ref (m.length + 1)) (.ref (m.length + 2))⟩
  let a' : EObj := upd a "_output_material" (fun _ => .ref (m.length + 2))
  let b' : EObj := upd b "_output_material" (fun _ => .ref (m.length + 3))
  show _ = (m ++ [a', b', c, d], _)
  have e1 : new env m .processSpec [("name", pn), ("template", pt)] = (m ++ [a], .ok m.length) := new_ok (ps_ok env h2 h3) rfl
  have e2 : new env (m ++ [a]) .processRun [("name", pn), ("spec", .ref m.length)] = (m ++ [a, b], .ok (m.length + 1)) := by
    rw [new_ok (pr_ok env h2 (points_new m a [])) rfl]
    simp [b]
  have e3 : new env (m ++ [a, b]) .materialSpec [("name", name), ("process", .ref m.length), ("template", mt)] = (m ++ [a', b, c], .ok (m.length + 2)) := by
    rw [new_link (ms_ok env h1 (points_new m a [b]) (h4.append _)) rfl rfl (by intro q e; cases e; simp)]
    simp only [answer, if_true, set_last]
    simp [a', c]
  have e4 : new env (m ++ [a', b, c]) .materialRun [("name", name), ("process", .ref (m.length + 1)), ("spec", .ref (m.length + 2))] =
      (m ++ [a', b', c, d], .ok (m.length + 3)) := by
    have hp1 : Points (m ++ [a', b, c]) .processRun (.ref (m.length + 1)) := points_at (x := b) (by simp)
    have hp2 : Points (m ++ [a', b, c]) .materialSpec (.ref (m.length + 2)) := points_at (x := c) (by simp)
    rw [new_link (mr_ok hs h1 hp1 hp2) rfl rfl (by intro q e; cases e; simp)]
    have : m ++ [a', b, c] = (m ++ [a']) ++ b :: [c] := by simp
    simp only [answer, if_true]
    rw [this, set_last' _ _ _ _ (by simp)]
    simp [b', d]
  unfold makeNode
  simp only [hp, e1, andThen, e2, e3, e4]

theorem unchanged_append (m t : Mem) : Unchanged m (m ++ t) := fun i hi => List.getElem?_append_left hi

/-- `make_node`, when it has not -/
theorem makeNode_error {env : Env} {m : Mem} {name given pt mt : V}
    (h : ∀ pn, processName m name given pt = .ok pn → ¬ (IsText name ∧ IsText pn ∧ Points m .processTemplate pt ∧ Points m .materialTemplate mt)) :
    ∃ m' e, makeNode env name given pt mt m = (m', .error e) ∧ Unchanged m m' := by
  unfold makeNode
  cases hp : processName m name given pt with
  | error e => exact ⟨m, e, rfl, fun _ _ => rfl⟩
  | ok pn =>
    have h := h pn hp
    by_cases h1 : IsText pn ∧ Points m .processTemplate pt
    · have e1 : new env m .processSpec [("name", pn), ("template", pt)] = (m ++ [⟨.processSpec, [], psFields pn pt⟩], .ok m.length) := new_ok (ps_ok env h1.1 h1.2) rfl
      have e2 : new env (m ++ [⟨.processSpec, [], psFields pn pt⟩]) .processRun [("name", pn), ("spec", .ref m.length)] =
          (m ++ [⟨.processSpec, [], psFields pn pt⟩, ⟨.processRun, [], prFields pn (.ref m.length)⟩], .ok (m.length + 1)) := by
        rw [new_ok (pr_ok env h1.1 (points_new m ⟨.processSpec, [], psFields pn pt⟩ [])) rfl]
        simp
      have e3 := new_error (ms_error env (m := m ++ [⟨.processSpec, [], psFields pn pt⟩, ⟨.processRun, [], prFields pn (.ref m.length)⟩]) (n := name) (p := .ref m.length)
        (t := mt) ?_) (by simp)
      · simp only [e1, e2, e3, andThen]
        exact ⟨_, _, rfl, unchanged_append _ _⟩
      · rintro ⟨h2, h3⟩
        refine h ⟨h2, h1.1, h1.2, ?_⟩
        rcases h3 with rfl | ⟨s, i, rfl⟩ | ⟨q, rfl, h3⟩
        · exact .inl rfl
        · exact .inr (.inl ⟨s, i, rfl⟩)
        · refine .inr (.inr ⟨q, rfl, ?_⟩)
          unfold cls at h3 ⊢
          by_cases hq : q < m.length
          · rw [List.getElem?_append_left hq] at h3
            exact h3
          · exfalso
            rw [List.getElem?_append_right (by omega)] at h3
            rcases hk : q - m.length with _ | _ | k <;> simp [hk] at h3
    · have e1 := new_error (ps_error env h1) (by simp)
      simp only [e1, andThen]
      exact ⟨_, _, rfl, fun _ _ => rfl⟩

theorem is_of {m : Mem} {o : Nat} {x : EObj} (hx : m[o]? = some x) {c : ECls} (hc : x.cls = c) {attrs : List (String × V)}
    (h : attrs.map (fun a => Dict.get? x.fields a.1) = attrs.map (fun a => some a.2)) : Is m o c attrs := by
  refine ⟨by rw [cls_of hx, hc], ?_⟩
  intro a ha
  simp only [peek, hx]
  exact (List.map_inj_left.1 h) a ha

/-- the four entities of a node -/
structure Node (m m' : Mem) (name pn pt mt : V) (r : Nat) : Prop where
  old : Unchanged m m'
  length : m'.length = m.length + 4
  parts : ∃ ps pr ms, ps < m'.length ∧ pr < m'.length ∧ ms < m'.length ∧ r < m'.length ∧ m.length ≤ ps ∧ m.length ≤ pr ∧ m.length ≤ ms ∧ m.length ≤ r ∧
    Is m' r .materialRun [("_name", name), ("_process", .ref pr), ("_spec", .ref ms), ("_measurements", .list [])] ∧
    Is m' pr .processRun [("_name", pn), ("_spec", .ref ps), ("_output_material", .ref r), ("_ingredients", .list [])] ∧
    Is m' ms .materialSpec [("_name", name), ("_process", .ref ps), ("_template", mt)] ∧
    Is m' ps .processSpec [("_name", pn), ("_template", pt), ("_output_material", .ref ms), ("_ingredients", .list [])]

theorem template_name {env : Env} (hsane : Sane env) {m : Mem} (h : Built env m) {q : Nat} (hq : cls m q = some .processTemplate) : ∃ v, peek m q "name" = some v := by
  obtain ⟨x, hx, hc⟩ := cls_some hq
  obtain ⟨vals, own, hs, _⟩ := h.wellTyped hsane q x hx
  obtain ⟨v, h1, _⟩ := arg_of (k := "name") (kd := .raw) hs (by rw [hc]; decide +kernel) (by rw [hc]; decide +kernel)
  exact ⟨v, by simp only [peek, hx, h1]⟩

/-- C50, `make_node`. With a name that is a string, templates of the right classes (or links, or None) and a process name that is a string, it makes a material run, its spec,
its process and the process spec, linked to one another, with these names and templates, and changes nothing else. Otherwise it raises, and all that was there is as it was. -/
theorem C50_make_node (env : Env) (hs : Sane env) (m : Mem) (h : Built env m) (name given pt mt : V) :
    (∀ pn, NodeName m name given pt pn → IsText name → IsText pn → Points m .processTemplate pt → Points m .materialTemplate mt →
      ∃ m' r, makeNode env name given pt mt m = (m', .ok r) ∧ Node m m' name pn pt mt r) ∧
    ((∀ pn, NodeName m name given pt pn → ¬ (IsText name ∧ IsText pn ∧ Points m .processTemplate pt ∧ Points m .materialTemplate mt)) →
      ∃ m' e, makeNode env name given pt mt m = (m', .error e) ∧ Unchanged m m') := by
  constructor
  · intro pn hn h1 h2 h3 h4
    have hp : processName m name given pt = .ok pn := by
      rcases hn with ⟨hg, rfl⟩ | ⟨rfl, rfl, rfl⟩ | ⟨rfl, t, rfl, ht⟩
      · unfold processName
        split
        · exact absurd rfl hg
        · rfl
      · rfl
      · simp only [processName, nameOf]
        unfold peek at ht
        split at ht
        · rename_i x hx
          simp only [hx, ht]
        · cases ht
    rw [makeNode_ok hs hp h1 h2 h3 h4]
    refine ⟨_, _, rfl, unchanged_append _ _, by simp, m.length, m.length + 1, m.length + 2, by simp, by simp, by simp, by simp, by omega, by omega, by omega, by omega,
      ?_, ?_, ?_, ?_⟩
    · exact is_of (x := ⟨.materialRun, [], mrFields name (.ref (m.length + 1)) (.ref (m.length + 2))⟩) (by simp) rfl rfl
    · exact is_of (x := upd ⟨.processRun, [], prFields pn (.ref m.length)⟩ "_output_material" (fun _ => .ref (m.length + 3))) (by simp [upd]) rfl rfl
    · exact is_of (x := ⟨.materialSpec, [], msFields name (.ref m.length) mt⟩) (by simp) rfl rfl
    · exact is_of (x := upd ⟨.processSpec, [], psFields pn pt⟩ "_output_material" (fun _ => .ref (m.length + 2))) (by simp [upd]) rfl rfl
  · intro hno
    refine makeNode_error ?_
    rintro pn hp ⟨h1, h2, h3, h4⟩
    refine hno pn ?_ ⟨h1, h2, h3, h4⟩
    unfold processName at hp
    split at hp
    · split at hp
      · cases hp
        exact .inr (.inl ⟨rfl, rfl, rfl⟩)
      · rename_i t' _
        refine .inr (.inr ⟨rfl, ?_⟩)
        rcases h3 with rfl | ⟨s, i, rfl⟩ | ⟨q, rfl, hq⟩
        · cases hp
        · cases hp
        · obtain ⟨v, hv⟩ := template_name hs h hq
          refine ⟨q, rfl, ?_⟩
          simp only [nameOf] at hp
          unfold peek at hv ⊢
          split at hv
          · rename_i x hx
            simp only [hx, hv] at hp ⊢
            cases hp
            rfl
          · cases hv
    · rename_i hg
      cases hp
      exact .inl ⟨hg, rfl⟩

/-! ### add_edge: specification -/

/-- the output of an edge: a material run with a spec, both with a process -/
def Output (m : Mem) (output ps pr : V) : Prop := ∃ o q, output = .ref o ∧ cls m o = some .materialRun ∧ peek m o "_spec" = some (.ref q) ∧ cls m q = some .materialSpec ∧
  peek m q "_process" = some ps ∧ ps ≠ .none ∧ peek m o "_process" = some pr ∧ pr ≠ .none

/-- the name of the ingredient: as given, else that of the input -/
def EdgeName (m : Mem) (o : Nat) (given n : V) : Prop := (given ≠ .none ∧ n = given) ∨ (given = .none ∧ peek m o "_name" = some n)

/-- what is stored for a quantity: nothing for None, a NominalReal for a float, a continuous value as it is -/
inductive Stored (env : Env) (check : String → V → Except PyErr Unit) (attr : String) (units : V) : V → V → Prop where
  | none : Stored env check attr units .none .none
  | float {x : Rat} {u u' : String} : units = .str u → env.parseUnits u = .ok u' → check attr (.obj "nominal_real" ["units", "nominal"] [.str u', .float x]) = .ok () →
      Stored env check attr units (.float x) (.obj "nominal_real" ["units", "nominal"] [.str u', .float x])
  | value {v : V} : isTyp continuousTypes v = true → check attr v = .ok () → Stored env check attr units v v

/-- units are given if and only if the absolute quantity is a float -/
def UnitsFit (absolute units : V) : Prop := (∃ x, absolute = .float x) ∨ units = .none

/-- what `v` points to has got `w` at the end of a list -/
def Gains (m m' : Mem) (v : V) (list : String) (w : Nat) : Prop := ∀ q, v = .ref q → ∃ l, peek m q list = some (.list l) ∧ peek m' q list = some (.list (l ++ [.ref w]))

/-- all that was there is as it was, except perhaps one list of some -/
def OnlyLists (m m' : Mem) (some : Nat → Prop) (list : String) : Prop :=
  ∀ i, i < m.length → cls m' i = cls m i ∧ (m'[i]?).map EObj.uids = (m[i]?).map EObj.uids ∧ ∀ a, ¬ (some i ∧ a = list) → peek m' i a = peek m i a

/-! ### What is known of the entities that constructors make -/

theorem pointer_of {env : Env} (hsane : Sane env) {m : Mem} (h : Built env m) {o : Nat} {c d : ECls} (hc : cls m o = some c) (attr : String)
    (h1 : ∃ a ∈ eargs c, a.attr = attr) (h2 : ∀ a ∈ eargs c, a.attr = attr → a.kind = .target [d]) : ∃ v, peek m o attr = some v ∧ Points m d v := by
  obtain ⟨x, hx, rfl⟩ := cls_some hc
  obtain ⟨vals, own, hs, _⟩ := h.wellTyped hsane o x hx
  obtain ⟨v, e, hv⟩ := arg_of hs h1 h2
  exact ⟨v, by simp only [peek, hx, e], target_of hv⟩

/-- the spec of a run -/
def specOf : ECls → Option ECls
  | .materialRun => some .materialSpec
  | .processRun => some .processSpec
  | .ingredientRun => some .ingredientSpec
  | .measurementRun => some .measurementSpec
  | _ => none

theorem spec_of {env : Env} (hsane : Sane env) {m : Mem} (h : Built env m) {o : Nat} {v : V} (hv : peek m o "_spec" = some v) :
    ∃ c d, cls m o = some c ∧ specOf c = some d ∧ Points m d v := by
  unfold peek at hv
  split at hv
  · rename_i x hx
    obtain ⟨vals, own, hs, _⟩ := h.wellTyped hsane o x hx
    cases hd : specOf x.cls with
    | none =>
      exfalso
      have hn : "_spec" ∉ (eargs x.cls).map EArg.attr ∧ "_spec" ∉ (ownFields x.cls).map Prod.fst := by
        cases hc : x.cls <;> rw [hc] at hd <;> first | (simp [specOf] at hd; done) | decide +kernel
      rw [hs.fields, get?_append, Verif.Substitute.get?_zip_none _ _ _ hn.1] at hv
      have : Dict.get? own "_spec" = none := by
        rw [Dict.get?_eq_none_iff]
        show "_spec" ∉ own.map Prod.fst
        rw [hs.own]
        exact hn.2
      simp [this] at hv
    | some d =>
      obtain ⟨w, hw, hp⟩ := pointer_of hsane h (d := d) (cls_of hx) "_spec" (by cases hc : x.cls <;> rw [hc] at hd <;> first | (simp [specOf] at hd; done) | decide +kernel)
        (by cases hc : x.cls <;> rw [hc] at hd <;> simp [specOf] at hd <;> subst hd <;> decide +kernel)
      simp only [peek, hx] at hw
      rw [hw] at hv
      cases hv
      exact ⟨_, d, cls_of hx, hd, hp⟩
  · cases hv

theorem own_list {env : Env} (hsane : Sane env) {m : Mem} (h : Built env m) {o : Nat} {c : ECls} (hc : cls m o = some c) (list : String)
    (hl : (c = .processSpec ∨ c = .processRun) ∧ list = "_ingredients" ∨ c = .materialRun ∧ list = "_measurements") : ∃ l, peek m o list = some (.list l) := by
  obtain ⟨x, hx, rfl⟩ := cls_some hc
  obtain ⟨vals, own, hs, _⟩ := h.wellTyped hsane o x hx
  obtain ⟨name, labels, e⟩ := Verif.Substitute.Built.backInv hsane h o x vals own hx hs
  refine ⟨Verif.Substitute.backers m .ref (List.range m.length) list o, ?_⟩
  simp only [peek, hx]
  have hb : list ∈ backNames := by rcases hl with ⟨_, rfl⟩ | ⟨_, rfl⟩ <;> decide
  rw [hs.fields, get?_append, Verif.Substitute.get?_zip_none _ _ _ (backNames_args x.cls list hb), e]
  rcases hl with ⟨hc | hc, rfl⟩ | ⟨hc, rfl⟩ <;> rw [hc] <;> rfl

theorem attrOf_iff {m : Mem} {v w : V} {attr : String} : attrOf m v attr = .ok w ↔ ∃ o, v = .ref o ∧ peek m o attr = some w := by
  unfold attrOf
  cases v <;> try simp
  rename_i o
  cases peek m o attr <;> simp

theorem outputOf_iff {env : Env} (hsane : Sane env) {m : Mem} (h : Built env m) {output ps pr : V} : outputOf m output = .ok (ps, pr) ↔ Output m output ps pr := by
  constructor
  · intro ho
    unfold outputOf at ho
    split at ho
    · cases ho
    · rename_i os h1
      obtain ⟨o, rfl, h1'⟩ := attrOf_iff.1 h1; clear h1; have h1 := h1'
      split at ho
      · rename_i hc
        obtain ⟨q, rfl⟩ : ∃ q, os = .ref q := by cases os <;> simp [isCls] at hc; exact ⟨_, rfl⟩
        have hq : cls m q = some .materialSpec := isCls_iff.1 hc
        obtain ⟨c, d, h2, h3, h4⟩ := spec_of hsane h h1
        have hd : d = .materialSpec := by
          rcases h4 with h4 | ⟨_, _, h4⟩ | ⟨q', h4, h5⟩
          · cases h4
          · cases h4
          · cases h4
            rw [hq] at h5
            exact (Option.some.inj h5).symm
        have hc' : c = .materialRun := by
          cases c <;> simp [specOf] at h3
          · rfl
          · rw [← h3] at hd; cases hd
          · rw [← h3] at hd; cases hd
          · rw [← h3] at hd; cases hd
        subst hc'
        split at ho
        · cases ho
        · cases ho
        · rename_i ps' hps e
          obtain ⟨_, e1, e'⟩ := attrOf_iff.1 e
          cases e1
          split at ho
          · cases ho
          · cases ho
          · rename_i pr' hpr e2
            obtain ⟨_, e1, e2'⟩ := attrOf_iff.1 e2
            cases e1
            cases ho
            exact ⟨o, q, rfl, h2, h1, hq, e', fun h => hps h, e2', fun h => hpr h⟩
      · cases ho
  · rintro ⟨o, q, rfl, h1, h2, h3, h4, h5, h6, h7⟩
    unfold outputOf
    rw [attrOf_iff.2 ⟨o, rfl, h2⟩]
    simp only [isCls_iff.2 h3, if_true, attrOf_iff.2 ⟨q, rfl, h4⟩, attrOf_iff.2 ⟨o, rfl, h6⟩]

theorem inputOf_iff {m : Mem} {input is : V} : inputOf m input = .ok is ↔ ∃ o, input = .ref o ∧ peek m o "_spec" = some is ∧ is ≠ .none := by
  constructor
  · intro h
    unfold inputOf at h
    split at h
    · cases h
    · cases h
    · rename_i s hs e
      cases h
      obtain ⟨o, rfl, e'⟩ := attrOf_iff.1 e
      exact ⟨o, rfl, e', fun h => hs h⟩
  · rintro ⟨o, rfl, h1, h2⟩
    unfold inputOf
    rw [attrOf_iff.2 ⟨o, rfl, h1⟩]
    cases is <;> first | exact absurd rfl h2 | rfl

theorem name_of {env : Env} (hsane : Sane env) {m : Mem} (h : Built env m) {o : Nat} (hc : cls m o = some .materialRun) :
    ∃ n, peek m o "_name" = some n ∧ nameOf m (.ref o) = .ok n ∧ IsText n := by
  obtain ⟨x, hx, hc⟩ := cls_some hc
  obtain ⟨vals, own, hs, _⟩ := h.wellTyped hsane o x hx
  obtain ⟨v, h1, h2⟩ := arg_of (k := "_name") (kd := .str) hs (by rw [hc]; decide +kernel) (by rw [hc]; decide +kernel)
  have h3 : Dict.get? x.fields "name" = none := by
    rw [Dict.get?_eq_none_iff]
    show "name" ∉ x.fields.map Prod.fst
    rw [hs.fields, List.map_append, List.map_fst_zip (by simp [hs.len]), hs.own, hc]
    decide +kernel
  refine ⟨v, by simp only [peek, hx, h1], ?_, ?_⟩
  · simp only [nameOf, hx, h1, h3, getattr, hc]
    simp
  · cases v <;> simp [conv, convStr] at h2
    exact ⟨_, rfl⟩

theorem edgeName_iff {env : Env} (hsane : Sane env) {m : Mem} (h : Built env m) {o : Nat} (hc : cls m o = some .materialRun) {given n : V} :
    edgeName m (.ref o) given = .ok n ↔ EdgeName m o given n := by
  obtain ⟨n', h1, h2, _⟩ := name_of hsane h hc
  unfold edgeName EdgeName
  cases given <;> simp [h1, h2, eq_comm]

/-! ### The quantities -/

theorem asValue_float (env : Env) (m : Mem) (units : V) (x : Rat) : asValue env m units (.float x) = match convUnits env units with
    | .ok u => .ok (.obj "nominal_real" ["units", "nominal"] [u, .float x])
    | .error e => .error e := by
  have ht : Dict.get? table "nominal_real" = some ⟨[⟨"units", some .none, .units⟩, ⟨"nominal", some .none, .nominal⟩], none⟩ := rfl
  simp only [asValue, ht, construct, bindArgs, given]
  have e1 : Dict.get? [("nominal", V.float x), ("units", units)] "units" = some units := rfl
  have e2 : Dict.get? [("nominal", V.float x), ("units", units)] "nominal" = some (.float x) := rfl
  simp only [e1, e2, setAll, conv]
  cases convUnits env units with
  | error e => rfl
  | ok u => rfl

/-- what changes when a quantity is given -/
structure Given (env : Env) (check : String → V → Except PyErr Unit) (attr : String) (units v : V) (R R' : EObj) (res : Except PyErr Unit) : Prop where
  cls : R'.cls = R.cls
  uids : R'.uids = R.uids
  other : ∀ b, b ≠ attr → Dict.get? R'.fields b = Dict.get? R.fields b
  ok : res = .ok () → ∃ w, Stored env check attr units v w ∧ Dict.get? R'.fields attr = some w
  error : ∀ e, res = .error e → ¬ ∃ w, Stored env check attr units v w

theorem quantity_given {env : Env} {check : String → V → Except PyErr Unit} {attr : String} {units v w : V} {M : Mem} {R : EObj} (h0 : Dict.get? R.fields attr = some .none)
    (hw : ∀ w', Stored env check attr units v w' ↔ w' = w ∧ isTyp continuousTypes w = true ∧ check attr w = .ok ()) :
    ∃ R' res, setQuantity check (M ++ [R]) M.length attr w = (M ++ [R'], res) ∧ Given env check attr units v R R' res := by
  unfold setQuantity
  by_cases ht : isTyp continuousTypes w = true
  · rw [if_pos ht]
    cases hc : check attr w with
    | error e => exact ⟨R, _, rfl, rfl, rfl, fun _ _ => rfl, nofun, fun _ _ ⟨w', h⟩ => by rw [hw, hc] at h; exact absurd h.2.2 (by simp)⟩
    | ok u =>
      refine ⟨upd R attr (fun _ => w), .ok (), by rw [set_last], rfl, rfl, fun b hb => by rw [upd_get, if_neg hb], fun _ => ⟨w, (hw w).2 ⟨rfl, ht, hc⟩, ?_⟩, nofun⟩
      rw [upd_get, if_pos rfl, h0]
      rfl
  · rw [if_neg ht]
    exact ⟨R, _, rfl, rfl, rfl, fun _ _ => rfl, nofun, fun _ _ ⟨w', h⟩ => ht ((hw w').1 h).2.1⟩

theorem stored_value {env : Env} {check : String → V → Except PyErr Unit} {attr : String} {units v : V} (h1 : v ≠ .none) (h2 : ∀ x, v ≠ .float x) (w' : V) :
    Stored env check attr units v w' ↔ w' = v ∧ isTyp continuousTypes v = true ∧ check attr v = .ok () := by
  constructor
  · rintro (_ | ⟨_, _, _⟩ | ⟨h, h'⟩)
    · exact absurd rfl h1
    · exact absurd rfl (h2 _)
    · exact ⟨rfl, h, h'⟩
  · rintro ⟨rfl, h, h'⟩
    exact .value h h'

theorem stored_float {env : Env} {check : String → V → Except PyErr Unit} {attr : String} {u u' : String} {x : Rat} (hu : env.parseUnits u = .ok u') (w' : V) :
    Stored env check attr (.str u) (.float x) w' ↔ w' = .obj "nominal_real" ["units", "nominal"] [.str u', .float x] ∧
      isTyp continuousTypes (.obj "nominal_real" ["units", "nominal"] [.str u', .float x]) = true ∧
      check attr (.obj "nominal_real" ["units", "nominal"] [.str u', .float x]) = .ok () := by
  constructor
  · rintro (_ | ⟨h1, h2, h3⟩ | ⟨h, h'⟩)
    · cases h1
      rw [hu] at h2
      cases h2
      exact ⟨rfl, rfl, h3⟩
    · cases h
  · rintro ⟨rfl, _, h⟩
    exact .float rfl hu h

theorem given_none {env : Env} {check : String → V → Except PyErr Unit} {attr : String} {units : V} {R : EObj} (h0 : Dict.get? R.fields attr = some .none) :
    Given env check attr units .none R R (.ok ()) :=
  ⟨rfl, rfl, fun _ _ => rfl, fun _ => ⟨.none, .none, h0⟩, nofun⟩

theorem float_given {env : Env} {check : String → V → Except PyErr Unit} {attr : String} {units : V} {x : Rat} {M : Mem} {R : EObj} (h0 : Dict.get? R.fields attr = some .none) :
    ∃ R' res, (match asValue env (M ++ [R]) units (.float x) with
      | .error e => (M ++ [R], .error e)
      | .ok w => setQuantity check (M ++ [R]) M.length attr w) = (M ++ [R'], res) ∧ Given env check attr units (.float x) R R' res := by
  rw [asValue_float]
  have bad : (∀ u u', units = .str u → env.parseUnits u ≠ .ok u') → ∀ e, ∃ R' res, (M ++ [R], (.error e : Except PyErr Unit)) = (M ++ [R'], res) ∧
      Given env check attr units (.float x) R R' res := by
    intro hb e
    refine ⟨R, _, rfl, rfl, rfl, fun _ _ => rfl, nofun, ?_⟩
    rintro _ _ ⟨w, h⟩
    rcases h with _ | ⟨h1, h2, h3⟩ | ⟨h, h'⟩
    · exact hb _ _ h1 h2
    · cases h
  cases units with
  | str u =>
    cases hu : env.parseUnits u with
    | error e =>
      simp only [convUnits, hu]
      exact bad (by rintro _ u' ⟨⟩ h; rw [hu] at h; cases h) e
    | ok u' =>
      simp only [convUnits, hu]
      exact quantity_given h0 (stored_float hu)
  | _ => simp only [convUnits]; exact bad (by rintro u u' ⟨⟩) _

theorem fraction_given (env : Env) (check : String → V → Except PyErr Unit) (attr : String) (v : V) (M : Mem) {R : EObj} (h0 : Dict.get? R.fields attr = some .none) :
    ∃ R' res, giveFraction env check (M ++ [R]) M.length attr v = (M ++ [R'], res) ∧ Given env check attr (.str "") v R R' res := by
  unfold giveFraction
  cases v with
  | none => exact ⟨R, _, rfl, given_none h0⟩
  | float x => exact float_given h0
  | _ => simp only [asValue]; exact quantity_given h0 (stored_value (by simp) (by simp))

theorem absolute_given (env : Env) (check : String → V → Except PyErr Unit) (v units : V) (M : Mem) {R : EObj} (h0 : Dict.get? R.fields "_absolute_quantity" = some .none) :
    ∃ R' res, giveAbsolute env check (M ++ [R]) M.length v units = (M ++ [R'], res) ∧ Given env check "_absolute_quantity" units v R R' res := by
  unfold giveAbsolute
  cases v with
  | none => exact ⟨R, _, rfl, given_none h0⟩
  | float x =>
    simp only
    split
    · rename_i hu
      subst hu
      refine ⟨R, _, rfl, rfl, rfl, fun _ _ => rfl, nofun, ?_⟩
      rintro _ _ ⟨w, h⟩
      rcases h with _ | ⟨h1, h2, h3⟩ | ⟨h, h'⟩
      · cases h1
      · cases h
    · exact float_given h0
  | _ => exact quantity_given h0 (stored_value (by simp) (by simp))

/-- all four quantities -/
def AllStored (env : Env) (check : String → V → Except PyErr Unit) (a : EdgeArgs) (get : String → Option V) : Prop :=
  (∃ w, Stored env check "_mass_fraction" (.str "") a.mass w ∧ get "_mass_fraction" = some w) ∧
  (∃ w, Stored env check "_number_fraction" (.str "") a.number w ∧ get "_number_fraction" = some w) ∧
  (∃ w, Stored env check "_volume_fraction" (.str "") a.volume w ∧ get "_volume_fraction" = some w) ∧
  (∃ w, Stored env check "_absolute_quantity" a.units a.absolute w ∧ get "_absolute_quantity" = some w) ∧ UnitsFit a.absolute a.units

/-- all four quantities can be stored -/
def Storable (env : Env) (check : String → V → Except PyErr Unit) (a : EdgeArgs) : Prop :=
  (∃ w, Stored env check "_mass_fraction" (.str "") a.mass w) ∧ (∃ w, Stored env check "_number_fraction" (.str "") a.number w) ∧
  (∃ w, Stored env check "_volume_fraction" (.str "") a.volume w) ∧ (∃ w, Stored env check "_absolute_quantity" a.units a.absolute w) ∧ UnitsFit a.absolute a.units

/-- the attributes for quantities -/
def quantityAttrs : List String := ["_mass_fraction", "_number_fraction", "_volume_fraction", "_absolute_quantity"]

theorem leftUnits_iff {v units : V} : leftUnits v units = false ↔ UnitsFit v units := by
  unfold leftUnits UnitsFit
  cases v <;> simp

theorem quantities_given (env : Env) (check : String → V → Except PyErr Unit) (a : EdgeArgs) (M : Mem) {R : EObj} (h0 : ∀ q ∈ quantityAttrs, Dict.get? R.fields q = some .none) :
    ∃ R' res, giveQuantities env check a (M ++ [R]) M.length = (M ++ [R'], res) ∧ R'.cls = R.cls ∧ R'.uids = R.uids ∧
      (∀ b, b ∉ quantityAttrs → Dict.get? R'.fields b = Dict.get? R.fields b) ∧
      (∀ r, res = .ok r → r = M.length ∧ AllStored env check a (Dict.get? R'.fields)) ∧ (∀ e, res = .error e → ¬ Storable env check a) := by
  unfold giveQuantities
  obtain ⟨R1, r1, e1, g1⟩ := fraction_given env check "_mass_fraction" a.mass M (R := R) (h0 _ (by simp [quantityAttrs]))
  rw [e1]
  have other : ∀ {attr b : String}, attr ∈ quantityAttrs → b ∉ quantityAttrs → b ≠ attr := fun h1 h2 e => h2 (e ▸ h1)
  cases r1 with
  | error e => exact ⟨R1, _, rfl, g1.cls, g1.uids, fun b hb => g1.other b (other (by simp [quantityAttrs]) hb), nofun, fun _ _ h => g1.error e rfl h.1⟩
  | ok u1 =>
    simp only [andThen]
    obtain ⟨R2, r2, e2, g2⟩ := fraction_given env check "_number_fraction" a.number M (R := R1)
      (by rw [g1.other _ (by decide)]; exact h0 _ (by simp [quantityAttrs]))
    rw [e2]
    cases r2 with
    | error e => exact ⟨R2, _, rfl, g2.cls.trans g1.cls, g2.uids.trans g1.uids,
        fun b hb => (g2.other b (other (by simp [quantityAttrs]) hb)).trans (g1.other b (other (by simp [quantityAttrs]) hb)), nofun,
        fun _ _ h => g2.error e rfl h.2.1⟩
    | ok u2 =>
      simp only [andThen]
      obtain ⟨R3, r3, e3, g3⟩ := fraction_given env check "_volume_fraction" a.volume M (R := R2)
        (by rw [g2.other _ (by decide), g1.other _ (by decide)]; exact h0 _ (by simp [quantityAttrs]))
      rw [e3]
      have o3 : ∀ b, b ∉ quantityAttrs → Dict.get? R3.fields b = Dict.get? R.fields b := fun b hb =>
        (g3.other b (other (by simp [quantityAttrs]) hb)).trans ((g2.other b (other (by simp [quantityAttrs]) hb)).trans (g1.other b (other (by simp [quantityAttrs]) hb)))
      cases r3 with
      | error e => exact ⟨R3, _, rfl, g3.cls.trans (g2.cls.trans g1.cls), g3.uids.trans (g2.uids.trans g1.uids), o3, nofun, fun _ _ h => g3.error e rfl h.2.2.1⟩
      | ok u3 =>
        simp only [andThen]
        obtain ⟨R4, r4, e4, g4⟩ := absolute_given env check a.absolute a.units M (R := R3)
          (by rw [g3.other _ (by decide), g2.other _ (by decide), g1.other _ (by decide)]; exact h0 _ (by simp [quantityAttrs]))
        rw [e4]
        have o4 : ∀ b, b ∉ quantityAttrs → Dict.get? R4.fields b = Dict.get? R.fields b := fun b hb => (g4.other b (other (by simp [quantityAttrs]) hb)).trans (o3 b hb)
        have c4 := g4.cls.trans (g3.cls.trans (g2.cls.trans g1.cls))
        have u4 := g4.uids.trans (g3.uids.trans (g2.uids.trans g1.uids))
        cases r4 with
        | error e => exact ⟨R4, _, rfl, c4, u4, o4, nofun, fun _ _ h => g4.error e rfl h.2.2.2.1⟩
        | ok u4' =>
          simp only [andThen]
          obtain ⟨w1, s1, k1⟩ := g1.ok rfl
          obtain ⟨w2, s2, k2⟩ := g2.ok rfl
          obtain ⟨w3, s3, k3⟩ := g3.ok rfl
          obtain ⟨w4, s4, k4⟩ := g4.ok rfl
          cases hl : leftUnits a.absolute a.units with
          | true =>
            refine ⟨R4, .error .valueError, by simp, c4, u4, o4, nofun, fun _ _ h => ?_⟩
            rw [leftUnits_iff.2 h.2.2.2.2] at hl
            cases hl
          | false =>
            refine ⟨R4, .ok M.length, by simp, c4, u4, o4, ?_, nofun⟩
            intro r hr
            cases hr
            refine ⟨rfl, ⟨w1, s1, ?_⟩, ⟨w2, s2, ?_⟩, ⟨w3, s3, ?_⟩, ⟨w4, s4, k4⟩, leftUnits_iff.1 hl⟩
            · rw [g4.other _ (by decide), g3.other _ (by decide), g2.other _ (by decide), k1]
            · rw [g4.other _ (by decide), g3.other _ (by decide), k2]
            · rw [g4.other _ (by decide), k3]

/-! ### add_edge -/

theorem answer_peek (m : Mem) (v : V) {back : String} (hb : back ≠ "_output_material") (w : V) (p : Nat) (b : String) :
    peek (answer m v back w) p b = if v = .ref p ∧ b = back then (peek m p b).map (appendTo w) else peek m p b := by
  cases v with
  | ref q =>
    simp only [answer, if_neg hb, peek_set]
    by_cases h : p = q ∧ b = back
    · rw [if_pos h, if_pos ⟨by rw [h.1], h.2⟩]
    · rw [if_neg h, if_neg fun h' => h ⟨by injection h'.1 with h'; exact h'.symm, h'.2⟩]
  | _ => simp [answer]

theorem answer_cls (m : Mem) (v : V) (back : String) (w : V) (p : Nat) : cls (answer m v back w) p = cls m p := by
  cases v <;> simp only [answer, cls_set]

theorem answer_uids (m : Mem) (v : V) (back : String) (w : V) (p : Nat) : ((answer m v back w)[p]?).map EObj.uids = (m[p]?).map EObj.uids := by
  cases v <;> simp only [answer]
  rename_i q
  rw [setField_at]
  cases m[p]? with
  | none => rfl
  | some x =>
    by_cases h : p = q <;> simp [h]

theorem cls_append {m : Mem} {p : Nat} (h : p < m.length) (t : Mem) : cls (m ++ t) p = cls m p := by
  unfold cls
  rw [List.getElem?_append_left h]

theorem peek_left {m : Mem} {p : Nat} (h : p < m.length) (t : Mem) (a : String) : peek (m ++ t) p a = peek m p a := by
  unfold peek
  rw [List.getElem?_append_left h]

theorem Points.of_cls {m m' : Mem} {c : ECls} {v : V} (h : Points m c v) (hc : ∀ p, p < m.length → cls m' p = cls m p) : Points m' c v := by
  rcases h with rfl | ⟨s, i, rfl⟩ | ⟨q, rfl, h⟩
  · exact .inl rfl
  · exact .inr (.inl ⟨s, i, rfl⟩)
  · exact .inr (.inr ⟨q, rfl, by rw [hc q (points_lt (.inr (.inr ⟨q, rfl, h⟩)) rfl), h]⟩)

/-- what `add_edge` is documented to need, without the quantities: an output with a spec and processes, an input that is a material run with a spec, a name that is a string -/
def Accepts (m : Mem) (input output given ps pr is n : V) (o : Nat) : Prop := Output m output ps pr ∧ input = .ref o ∧ cls m o = some .materialRun ∧
  peek m o "_spec" = some is ∧ is ≠ .none ∧ EdgeName m o given n ∧ IsText n

/-- an ingredient run and its spec, linked to the materials and the processes -/
structure Edge (m m' : Mem) (ps pr is n : V) (o r : Nat) : Prop where
  length : m'.length = m.length + 2
  new : m.length ≤ r ∧ r < m'.length
  parts : ∃ s, m.length ≤ s ∧ s < m'.length ∧ Is m' s .ingredientSpec [("_name", n), ("_process", ps), ("_material", is)] ∧
    Is m' r .ingredientRun [("_spec", .ref s), ("_process", pr), ("_material", .ref o)] ∧ Gains m m' ps "_ingredients" s
  gains : Gains m m' pr "_ingredients" r
  only : OnlyLists m m' (fun i => ps = .ref i ∨ pr = .ref i) "_ingredients"

/-- the memory when the ingredient run has been made -/
def edgeBase (m : Mem) (ps pr is n : V) : Mem := answer (answer m ps "_ingredients" (.ref m.length)) pr "_ingredients" (.ref (m.length + 1)) ++ [⟨.ingredientSpec, [], isFields n ps is⟩]

theorem edgeBase_length (m : Mem) (ps pr is n : V) : (edgeBase m ps pr is n).length = m.length + 1 := by
  simp [edgeBase, answer_length]

/-- what `add_edge` can do -/
theorem addEdge_cases (env : Env) (hsane : Sane env) (check : String → V → Except PyErr Unit) (m : Mem) (h : Built env m) (input output : V) (a : EdgeArgs) :
    (∃ ps pr is n o, Accepts m input output a.name ps pr is n o ∧ Points m .processSpec ps ∧ Points m .processRun pr ∧
      addEdge env check input output a m = giveQuantities env check a (edgeBase m ps pr is n ++ [⟨.ingredientRun, [], irFields (.ref m.length) pr input⟩]) (m.length + 1)) ∨
    (¬ (∃ ps pr is n o, Accepts m input output a.name ps pr is n o) ∧ ((∃ e, addEdge env check input output a m = (m, .error e)) ∨
      (∃ o sc i, input = .ref o ∧ cls m o ≠ some .materialRun ∧ peek m o "_spec" = some (.link sc i) ∧
        ∃ ps S e, Points m .processSpec ps ∧ addEdge env check input output a m = (answer m ps "_ingredients" (.ref m.length) ++ [S], .error e)))) := by
  unfold addEdge
  cases ho : outputOf m output with
  | error e =>
    refine .inr ⟨?_, .inl ⟨e, rfl⟩⟩
    rintro ⟨ps, pr, _, _, _, h1, _⟩
    rw [(outputOf_iff hsane h).2 h1] at ho
    cases ho
  | ok p =>
    obtain ⟨ps, pr⟩ := p
    have hO := (outputOf_iff hsane h).1 ho
    have hdet : ∀ ps' pr', Output m output ps' pr' → ps' = ps ∧ pr' = pr := by
      intro ps' pr' h'
      rw [(outputOf_iff hsane h).2 h'] at ho
      cases ho
      exact ⟨rfl, rfl⟩
    have hP : Points m .processSpec ps ∧ Points m .processRun pr := by
      obtain ⟨o, q, _, h1, _, h3, h4, _, h6, _⟩ := hO
      obtain ⟨v, e1, p1⟩ := pointer_of hsane h (d := .processSpec) h3 "_process" (by decide +kernel) (by decide +kernel)
      obtain ⟨w, e2, p2⟩ := pointer_of hsane h (d := .processRun) h1 "_process" (by decide +kernel) (by decide +kernel)
      rw [h4] at e1
      rw [h6] at e2
      cases e1
      cases e2
      exact ⟨p1, p2⟩
    simp only
    cases hi : inputOf m input with
    | error e =>
      refine .inr ⟨?_, .inl ⟨e, rfl⟩⟩
      rintro ⟨_, _, is, _, o, _, h1, _, h2, h3, _⟩
      rw [inputOf_iff.2 ⟨o, h1, h2, h3⟩] at hi
      cases hi
    | ok is =>
      obtain ⟨o, rfl, hs1, hs2⟩ := inputOf_iff.1 hi
      simp only
      cases hn : edgeName m (.ref o) a.name with
      | error e =>
        refine .inr ⟨?_, .inl ⟨e, rfl⟩⟩
        rintro ⟨_, _, _, n, o', _, h1, h2, _, _, h3, _⟩
        cases h1
        rw [(edgeName_iff hsane h h2).2 h3] at hn
        cases hn
      | ok n =>
        simp only
        by_cases hok : IsText n ∧ Points m .materialSpec is
        · have e1 := new_link (is_ok env hok.1 hP.1 hok.2) rfl rfl (fun q e => points_lt hP.1 e)
          rw [e1]
          simp only [andThen]
          have hcls : ∀ p, p < m.length → cls (answer m ps "_ingredients" (.ref m.length) ++ [(⟨.ingredientSpec, [], isFields n ps is⟩ : EObj)]) p = cls m p := by
            intro p hp
            rw [cls_append (by rw [answer_length]; exact hp), answer_cls]
          have hpr := hP.2.of_cls hcls
          have hsp : Points (answer m ps "_ingredients" (.ref m.length) ++ [(⟨.ingredientSpec, [], isFields n ps is⟩ : EObj)]) .ingredientSpec (.ref m.length) := by
            have := points_new (answer m ps "_ingredients" (.ref m.length)) (⟨.ingredientSpec, [], isFields n ps is⟩ : EObj) []
            rwa [answer_length] at this
          have hlt : o < m.length := by
            unfold peek at hs1
            split at hs1
            · rename_i x hx
              exact (List.getElem?_eq_some_iff.1 hx).1
            · cases hs1
          by_cases hm : cls m o = some .materialRun
          · refine .inl ⟨ps, pr, is, n, o, ⟨hO, rfl, hm, hs1, hs2, (edgeName_iff hsane h hm).1 hn, hok.1⟩, hP.1, hP.2, ?_⟩
            have hin : Points (answer m ps "_ingredients" (.ref m.length) ++ [(⟨.ingredientSpec, [], isFields n ps is⟩ : EObj)]) .materialRun (.ref o) :=
              .inr (.inr ⟨o, rfl, by rw [hcls o hlt, hm]⟩)
            rw [new_link (ir_ok env hsp hpr hin) rfl rfl (fun q e => points_lt hpr e)]
            rw [answer_append (by intro q e; rw [answer_length]; exact points_lt hP.2 e)]
            simp only [List.length_append, answer_length, List.length_singleton]
            rfl
          · refine .inr ⟨?_, .inr ?_⟩
            · rintro ⟨_, _, _, _, _, _, h1, h2, _⟩
              cases h1
              exact hm h2
            · obtain ⟨c, d, h1, h2, h3⟩ := spec_of hsane h hs1
              have hno : ¬ Points (answer m ps "_ingredients" (.ref m.length) ++ [(⟨.ingredientSpec, [], isFields n ps is⟩ : EObj)]) .materialRun (.ref o) := by
                rintro (h' | ⟨_, _, h'⟩ | ⟨q, h', h''⟩)
                · cases h'
                · cases h'
                · cases h'
                  rw [hcls o hlt] at h''
                  exact hm h''
              have e2 := new_error (ir_error env hsp (fun h' => hno h'.1) (p := pr)) (by simp)
              rcases h3 with rfl | ⟨sc, i, rfl⟩ | ⟨q, rfl, h4⟩
              · exact absurd rfl hs2
              · exact ⟨o, sc, i, rfl, hm, hs1, ps, _, _, hP.1, by rw [e2]⟩
              · exfalso
                rcases hok.2 with h' | ⟨_, _, h'⟩ | ⟨q', h', h''⟩
                · cases h'
                · cases h'
                · cases h'
                  rw [h4] at h''
                  cases h''
                  apply hm
                  rw [h1]
                  cases c <;> simp [specOf] at h2
                  rfl
        · have e1 := new_error (is_error env (m := m) (n := n) (p := ps) (s := is) fun h' => hok ⟨h'.1, h'.2.1⟩) (by simp)
          rw [e1]
          refine .inr ⟨?_, .inl ⟨_, rfl⟩⟩
          rintro ⟨_, _, is', n', o', _, h1, h2, h3, _, h4, h5⟩
          cases h1
          rw [(edgeName_iff hsane h h2).2 h4] at hn
          cases hn
          rw [hs1] at h3
          cases h3
          obtain ⟨v, e2, p2⟩ := pointer_of hsane h (d := .materialSpec) h2 "_spec" (by decide +kernel) (by decide +kernel)
          rw [hs1] at e2
          cases e2
          exact hok ⟨h5, p2⟩

theorem only_answer (m : Mem) (v : V) {list : String} (hl : list ≠ "_output_material") (w : V) (t : Mem) :
    OnlyLists m (answer m v list w ++ t) (fun i => v = .ref i) list := by
  intro i hi
  have hi' : i < (answer m v list w).length := by rw [answer_length]; exact hi
  refine ⟨by rw [cls_append hi', answer_cls], by rw [List.getElem?_append_left hi', answer_uids], ?_⟩
  intro b hb
  rw [peek_left hi', answer_peek _ _ hl, if_neg hb]

theorem only_unchanged (m : Mem) (some : Nat → Prop) (list : String) : OnlyLists m m some list := fun _ _ => ⟨rfl, rfl, fun _ _ => rfl⟩

/-- the entities after `add_edge`, whatever the quantities do to the ingredient run -/
theorem edge_made {env : Env} (hsane : Sane env) {m : Mem} (h : Built env m) {ps pr is n : V} {o : Nat} (hps : Points m .processSpec ps) (hpr : Points m .processRun pr) {R : EObj}
    (hc : R.cls = .ingredientRun) (hR : ∀ b, b ∉ quantityAttrs → Dict.get? R.fields b = Dict.get? (irFields (.ref m.length) pr (.ref o)) b) :
    Edge m (edgeBase m ps pr is n ++ [R]) ps pr is n o (m.length + 1) := by
  have hlen := edgeBase_length m ps pr is n
  have hl : ("_ingredients" : String) ≠ "_output_material" := by decide
  have hpe : ∀ i b, i < m.length → peek (edgeBase m ps pr is n ++ [R]) i b =
      if pr = .ref i ∧ b = "_ingredients" then ((if ps = .ref i ∧ b = "_ingredients" then (peek m i b).map (appendTo (.ref m.length)) else peek m i b)).map (appendTo (.ref (m.length + 1)))
      else if ps = .ref i ∧ b = "_ingredients" then (peek m i b).map (appendTo (.ref m.length)) else peek m i b := by
    intro i b hi
    rw [peek_left (by rw [hlen]; omega)]
    unfold edgeBase
    rw [peek_left (by rw [answer_length, answer_length]; exact hi), answer_peek _ _ hl, answer_peek _ _ hl]
  have hdis : ∀ q, ps = .ref q → pr = .ref q → False := by
    rintro q rfl rfl
    rcases hps with h' | ⟨_, _, h'⟩ | ⟨_, h', h1⟩
    · cases h'
    · cases h'
    · cases h'
      rcases hpr with h' | ⟨_, _, h'⟩ | ⟨_, h', h2⟩
      · cases h'
      · cases h'
      · cases h'
        rw [h1] at h2
        cases h2
  refine ⟨by simp [hlen], ⟨by omega, by simp [hlen]⟩, ⟨m.length, by omega, by simp [hlen]; omega, ?_, ?_, ?_⟩, ?_, ?_⟩
  · refine is_of (x := ⟨.ingredientSpec, [], isFields n ps is⟩) ?_ rfl rfl
    rw [List.getElem?_append_left (by rw [hlen]; omega), edgeBase, List.getElem?_append_right (by simp [answer_length])]
    simp [answer_length]
  · have hx : (edgeBase m ps pr is n ++ [R])[m.length + 1]? = some R := by
      rw [List.getElem?_append_right (by rw [hlen]; omega), hlen]
      simp
    refine is_of hx hc ?_
    simp only [List.map_cons, List.map_nil]
    rw [hR _ (by decide), hR _ (by decide), hR _ (by decide)]
    rfl
  · rintro q rfl
    have hq := points_lt hps rfl
    have hcq : cls m q = some .processSpec := by
      rcases hps with h' | ⟨_, _, h'⟩ | ⟨_, h', h1⟩
      · cases h'
      · cases h'
      · cases h'; exact h1
    obtain ⟨l, e⟩ := own_list hsane h hcq "_ingredients" (.inl ⟨.inl rfl, rfl⟩)
    refine ⟨l, e, ?_⟩
    rw [hpe q _ hq, if_neg fun h' => hdis q rfl h'.1, if_pos ⟨rfl, rfl⟩, e]
    rfl
  · rintro q rfl
    have hq := points_lt hpr rfl
    have hcq : cls m q = some .processRun := by
      rcases hpr with h' | ⟨_, _, h'⟩ | ⟨_, h', h1⟩
      · cases h'
      · cases h'
      · cases h'; exact h1
    obtain ⟨l, e⟩ := own_list hsane h hcq "_ingredients" (.inl ⟨.inr rfl, rfl⟩)
    refine ⟨l, e, ?_⟩
    rw [hpe q _ hq, if_pos ⟨rfl, rfl⟩, if_neg fun h' => hdis q h'.1 rfl, e]
    rfl
  · intro i hi
    have h1 : i < (answer (answer m ps "_ingredients" (.ref m.length)) pr "_ingredients" (.ref (m.length + 1))).length := by rw [answer_length, answer_length]; exact hi
    refine ⟨?_, ?_, ?_⟩
    · rw [cls_append (by rw [hlen]; omega), edgeBase, cls_append h1, answer_cls, answer_cls]
    · rw [List.getElem?_append_left (by rw [hlen]; omega), edgeBase, List.getElem?_append_left h1, answer_uids, answer_uids]
    · intro b hb
      rw [hpe i b hi, if_neg fun h' => hb ⟨.inr h'.1, h'.2⟩, if_neg fun h' => hb ⟨.inl h'.1, h'.2⟩]

theorem edge_peek {m : Mem} {ps pr is n : V} {R : EObj} (a : String) : peek (edgeBase m ps pr is n ++ [R]) (m.length + 1) a = Dict.get? R.fields a := by
  have := peek_last (edgeBase m ps pr is n) R a
  rwa [edgeBase_length] at this

/-- `add_edge` with arguments it accepts -/
theorem addEdge_accepts {env : Env} (hsane : Sane env) {check : String → V → Except PyErr Unit} {m : Mem} (h : Built env m) {input output : V} {a : EdgeArgs} {ps pr is n : V} {o : Nat}
    (hacc : Accepts m input output a.name ps pr is n o) : ∃ m' res, addEdge env check input output a m = (m', res) ∧ Edge m m' ps pr is n o (m.length + 1) ∧
      (∀ r, res = .ok r → r = m.length + 1 ∧ AllStored env check a (peek m' (m.length + 1))) ∧ (∀ e, res = .error e → ¬ Storable env check a) := by
  rcases addEdge_cases env hsane check m h input output a with ⟨ps', pr', is', n', o', hacc', hps, hpr, e⟩ | ⟨hno, _⟩
  · obtain ⟨rfl, rfl, rfl, rfl, rfl⟩ : ps' = ps ∧ pr' = pr ∧ o' = o ∧ is' = is ∧ n' = n := by
      obtain ⟨h1, rfl, h2, h3, _, h4, _⟩ := hacc
      obtain ⟨h1', h5, h2', h3', _, h4', _⟩ := hacc'
      cases h5
      rw [← outputOf_iff hsane h] at h1 h1'
      rw [h1] at h1'
      cases h1'
      rw [h3] at h3'
      cases h3'
      rw [← edgeName_iff hsane h h2] at h4 h4'
      rw [h4] at h4'
      cases h4'
      exact ⟨rfl, rfl, rfl, rfl, rfl⟩
    obtain ⟨R', res, e', hc, hu, ho, hok, her⟩ := quantities_given env check a (edgeBase m ps' pr' is' n') (R := ⟨.ingredientRun, [], irFields (.ref m.length) pr' input⟩)
      (by intro q hq; simp only [quantityAttrs, List.mem_cons, List.not_mem_nil, or_false] at hq; rcases hq with rfl | rfl | rfl | rfl <;> rfl)
    rw [edgeBase_length] at e' hok
    rw [e']at e
    refine ⟨_, _, e, edge_made hsane h hps hpr hc ?_, ?_, her⟩
    · obtain ⟨_, rfl, _⟩ := hacc
      exact ho
    · intro r hr
      refine ⟨(hok r hr).1, ?_⟩
      have : (peek (edgeBase m ps' pr' is' n' ++ [R']) (m.length + 1)) = Dict.get? R'.fields := funext edge_peek
      rw [this]
      exact (hok r hr).2
  · exact absurd ⟨ps, pr, is, n, o, hacc⟩ hno

theorem AllStored.storable {env : Env} {check : String → V → Except PyErr Unit} {a : EdgeArgs} {get : String → Option V} (h : AllStored env check a get) : Storable env check a :=
  ⟨let ⟨w, h, _⟩ := h.1; ⟨w, h⟩, let ⟨w, h, _⟩ := h.2.1; ⟨w, h⟩, let ⟨w, h, _⟩ := h.2.2.1; ⟨w, h⟩, let ⟨w, h, _⟩ := h.2.2.2.1; ⟨w, h⟩, h.2.2.2.2⟩

/-- C50, `add_edge`. It succeeds exactly if the output is a material run with a spec and both have processes, the input is a material run with a spec, the name is a string, the
quantities can be stored and units are given only with a number. Then the new ingredient run and its spec are linked to the materials and the processes as documented, the
processes have them as their last ingredients, the quantities are stored, and nothing else changes. -/
theorem C50_add_edge (env : Env) (hsane : Sane env) (check : String → V → Except PyErr Unit) (m : Mem) (h : Built env m) (input output : V) (a : EdgeArgs) :
    (∀ ps pr is n o, Accepts m input output a.name ps pr is n o → Storable env check a →
      ∃ m' r, addEdge env check input output a m = (m', .ok r) ∧ Edge m m' ps pr is n o r ∧ AllStored env check a (peek m' r)) ∧
    (∀ m' r, addEdge env check input output a m = (m', .ok r) → Storable env check a ∧
      ∃ ps pr is n o, Accepts m input output a.name ps pr is n o ∧ Edge m m' ps pr is n o r ∧ AllStored env check a (peek m' r)) := by
  constructor
  · intro ps pr is n o hacc hst
    obtain ⟨m', res, e, he, hok, her⟩ := addEdge_accepts hsane (check := check) h hacc
    cases res with
    | error e' => exact absurd hst (her e' rfl)
    | ok r =>
      obtain ⟨rfl, hall⟩ := hok r rfl
      exact ⟨m', _, e, he, hall⟩
  · intro m' r e
    rcases addEdge_cases env hsane check m h input output a with ⟨ps, pr, is, n, o, hacc, _⟩ | ⟨_, ⟨e', h1⟩ | ⟨_, _, _, _, _, _, _, _, _, _, h1⟩⟩
    · obtain ⟨m'', res, e', he, hok, _⟩ := addEdge_accepts hsane (check := check) h hacc
      rw [e] at e'
      cases e'
      obtain ⟨rfl, hall⟩ := hok r rfl
      exact ⟨hall.storable, ps, pr, is, n, o, hacc, he, hall⟩
    · rw [h1] at e
      cases e
    · rw [h1] at e
      cases e

/-- C50, `add_edge`, whether it raises or not: of what was there only the ingredients of a process can have changed. -/
theorem C50_add_edge_else (env : Env) (hsane : Sane env) (check : String → V → Except PyErr Unit) (m : Mem) (h : Built env m) (input output : V) (a : EdgeArgs) :
    OnlyLists m (addEdge env check input output a m).1 (fun i => cls m i = some .processSpec ∨ cls m i = some .processRun) "_ingredients" := by
  have weaken : ∀ {m' : Mem} {s t : Nat → Prop}, OnlyLists m m' s "_ingredients" → (∀ i, s i → t i) → OnlyLists m m' t "_ingredients" :=
    fun h1 h2 i hi => ⟨(h1 i hi).1, (h1 i hi).2.1, fun b hb => (h1 i hi).2.2 b fun h' => hb ⟨h2 i h'.1, h'.2⟩⟩
  have points : ∀ {c : ECls} {i : Nat}, Points m c (.ref i) → cls m i = some c := by
    rintro c i (h' | ⟨_, _, h'⟩ | ⟨_, h', h1⟩)
    · cases h'
    · cases h'
    · cases h'; exact h1
  rcases addEdge_cases env hsane check m h input output a with ⟨ps, pr, is, n, o, hacc, hps, hpr, _⟩ | ⟨_, ⟨e', h1⟩ | ⟨_, _, _, _, _, _, ps, S, _, hps, h1⟩⟩
  · obtain ⟨m', res, e, he, _⟩ := addEdge_accepts hsane (check := check) h hacc
    rw [e]
    refine weaken he.only ?_
    rintro i (rfl | rfl)
    · exact .inl (points hps)
    · exact .inr (points hpr)
  · rw [h1]
    exact only_unchanged _ _ _
  · rw [h1]
    refine weaken (only_answer m ps (by decide) _ _) ?_
    rintro i rfl
    exact .inl (points hps)

/-- C50, `add_edge` that raises, in part: if the quantities can be stored, and the input is a material run or at least not a run whose spec is a link, nothing at all is changed or
made. What is missing: with quantities that cannot be stored, and with such a run for input, the new ingredients stay with the processes (`C50_add_edge_counterexample`). -/
theorem C50_add_edge_raises_partial (env : Env) (hsane : Sane env) (check : String → V → Except PyErr Unit) (m : Mem) (h : Built env m) (input output : V) (a : EdgeArgs)
    (hq : Storable env check a) (hi : ∀ o sc i, input = .ref o → peek m o "_spec" = some (.link sc i) → cls m o = some .materialRun)
    (m' : Mem) (e : PyErr) (he : addEdge env check input output a m = (m', .error e)) : m' = m := by
  rcases addEdge_cases env hsane check m h input output a with ⟨ps, pr, is, n, o, hacc, _⟩ | ⟨_, ⟨e', h1⟩ | ⟨o, sc, i, h1, h2, h3, _⟩⟩
  · obtain ⟨m'', res, e', _, _, her⟩ := addEdge_accepts hsane (check := check) h hacc
    rw [he] at e'
    cases e'
    exact absurd hq (her e rfl)
  · rw [h1] at he
    cases he
    rfl
  · exact absurd (hi o sc i h1 h3) h2

end Verif.Builders
