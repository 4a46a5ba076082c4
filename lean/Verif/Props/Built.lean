import Verif.Props.Entity
/-!
# Entities made by their constructors are well typed
-/

set_option linter.unusedSimpArgs false
set_option linter.unusedVariables false
set_option linter.unusedSectionVars false

namespace Verif.Json
open Verif.Py Verif.Value Verif.Schema

/-- the attributes that point back -/
def backNames : List String := ["_output_material", "_ingredients", "_measurements"]

theorem backRef_names {c : ECls} {there back : String} (h : backRef c = some (there, back)) : back ∈ backNames := by
  cases c <;> simp [backRef] at h <;> simp [h.2.symm, backNames]

theorem backNames_args (c : ECls) : ∀ k ∈ backNames, k ∉ (eargs c).map EArg.attr := by cases c <;> decide +kernel

theorem setField_at (m : Mem) (o : Nat) (a : String) (f : V → V) (p : Nat) : (setField m o a f)[p]? = (m[p]?).map (fun x =>
    if p = o then { x with fields := x.fields.map (fun g => if g.1 = a then (g.1, f g.2) else g) } else x) := by
  unfold setField
  cases hx : m[o]? with
  | none =>
    simp only
    cases hp : m[p]? with
    | none => rfl
    | some y =>
      have : p ≠ o := by intro e; subst e; rw [hx] at hp; cases hp
      simp [this]
  | some x =>
    simp only
    rw [List.getElem?_set]
    by_cases e : o = p
    · subst e
      have := (List.getElem?_eq_some_iff.1 hx).1
      rw [hx]
      simp [this]
    · have : p ≠ o := fun h => e h.symm
      simp only [if_neg e, if_neg this]
      cases m[p]? <;> rfl

theorem get?_map_other (fs : List (String × V)) (a : String) (f : V → V) (k : String) (h : k ≠ a) :
    Dict.get? (fs.map (fun g => if g.1 = a then (g.1, f g.2) else g)) k = Dict.get? fs k := by
  induction fs with
  | nil => rfl
  | cons g fs ih =>
    obtain ⟨n, v⟩ := g
    simp only [List.map_cons]
    by_cases e : n = a
    · subst e
      rw [if_pos rfl]
      simp only [Dict.get?]
      rw [if_neg (fun h' => h h'.symm), if_neg (fun h' => h h'.symm)]
      exact ih
    · simp only [if_neg e, Dict.get?]
      split
      · rfl
      · exact ih

theorem setField_grows (m : Mem) (o : Nat) {a : String} (h : a ≠ "_bounds") (f : V → V) : Grows m (setField m o a f) := by
  intro p x hx
  rw [setField_at, hx]
  refine ⟨_, rfl, ?_, ?_⟩
  · simp only; split <;> rfl
  · intro b hb
    simp only
    split
    · simp only; rw [get?_map_other _ _ _ _ (fun e => h e.symm)]; exact hb
    · exact hb

theorem Shape.set {env : Env} {m : Mem} {x : EObj} {vals : List V} {own : List (String × V)} (h : Shape env m x vals own) {a : String}
    (ha : a ∈ backNames) (f : V → V) :
    Shape env m { x with fields := x.fields.map (fun g => if g.1 = a then (g.1, f g.2) else g) } vals
      (own.map (fun g => if g.1 = a then (g.1, f g.2) else g)) := by
  refine ⟨h.len, ?_, ?_, h.conv, h.ok, h.uids⟩
  · simp only [h.fields, List.map_append]
    rw [map_set_other]
    rw [List.map_fst_zip (by simp [h.len])]
    exact backNames_args x.cls a ha
  · simp only
    rw [← h.own, List.map_map]
    apply List.map_congr_left
    intro g _
    simp only [Function.comp]
    split <;> rfl

theorem setField_wellTyped {env : Env} {m : Mem} (h : WellTyped env m) (o : Nat) {a : String} (ha : a ∈ backNames) (f : V → V) :
    WellTyped env (setField m o a f) := by
  have hg : Grows m (setField m o a f) := setField_grows m o (by intro e; subst e; simp [backNames] at ha) f
  intro p x hx
  rw [setField_at] at hx
  cases hp : m[p]? with
  | none => rw [hp] at hx; cases hx
  | some y =>
    rw [hp] at hx
    obtain ⟨vals, own, hs, hown⟩ := h p y hp
    simp only [Option.map_some, Option.some.injEq] at hx
    split at hx
    · subst hx
      refine ⟨vals, _, (hs.set ha f).grows hg, ?_⟩
      intro hc
      obtain ⟨name, labels, rfl, h1, h2⟩ := hown hc
      refine ⟨name, labels, ?_, h1, h2⟩
      have e1 : "_name" ≠ a := by intro e; subst e; simp [backNames] at ha
      have e2 : "_labels" ≠ a := by intro e; subst e; simp [backNames] at ha
      simp [e1, e2]
    · subst hx
      exact ⟨vals, own, hs.grows hg, hown⟩

theorem linkBack_wellTyped {env : Env} {m : Mem} (h : WellTyped env m) (o : Nat) (x : EObj) : WellTyped env (linkBack m o x) := by
  unfold linkBack
  split
  · rename_i there back e
    split
    · exact setField_wellTyped h _ (backRef_names e) _
    · exact h
  · exact h

theorem linkBack_grows (m : Mem) (o : Nat) (x : EObj) : Grows m (linkBack m o x) := by
  unfold linkBack
  split
  · rename_i there back e
    split
    · exact setField_grows _ _ (by intro h; subst h; exact absurd (backRef_names e) (by simp [backNames])) _
    · exact Grows.refl _
  · exact Grows.refl _

theorem WellTyped.append {env : Env} {m : Mem} (h : WellTyped env m) {x : EObj} {vals : List V} {own : List (String × V)} (hs : Shape env m x vals own)
    (hown : x.cls = .ingredientRun → ∃ name labels, own = [("_name", name), ("_labels", labels)] ∧ nameLike name ∧ labelsLike labels) :
    WellTyped env (m ++ [x]) := by
  intro o y hy
  rcases Nat.lt_trichotomy o m.length with hlt | rfl | hgt
  · rw [List.getElem?_append_left hlt] at hy
    obtain ⟨vals', own', hs', hown'⟩ := h o y hy
    exact ⟨vals', own', hs'.grows (Grows.append _ _), hown'⟩
  · simp at hy
    subst hy
    exact ⟨vals, own, hs.grows (Grows.append _ _), hown⟩
  · rw [List.getElem?_eq_none (by simp; omega)] at hy
    cases hy

theorem eargs_defaults (c : ECls) : ∀ a ∈ eargs c, ∀ d, a.dflt = some d → scalar d = true := by
  have : ∀ c : ECls, ∀ a ∈ eargs c, ∀ d ∈ a.dflt.toList, scalar d = true := by intro c; cases c <;> decide +kernel
  intro a ha d hd
  exact this c a ha d (by simp [hd])

/-- a new object -/
theorem newEntity_shape {env : Env} (hs : Sane env) {m : Mem} {c : ECls} {kwargs : List (String × V)} {x : EObj}
    (hk : ∀ e ∈ kwargs, okV env m e.2 ∧ strKeys e.2) (h : newEntity env m c kwargs = .ok x) :
    x.cls = c ∧ ∃ vals, Shape env m x vals (ownFields c) := by
  unfold newEntity at h
  split at h
  · cases h
  · rename_i bound hb
    split at h
    · cases h
    · rename_i vals hvals
      split at h
      · cases h
      · rename_i uids hu
        cases h
        refine ⟨rfl, vals, ?_⟩
        obtain ⟨hb1, hb2⟩ := bindArgs_out hb
        obtain ⟨hv1, hv2⟩ := setAll_out hvals
        have hlen : (eargs c).length = vals.length := by
          have := congrArg List.length hb1
          simp at this
          omega
        have argOk : ∀ b ∈ bound, strKeys b.2 ∧ Json.okV env m b.2 := by
          intro b hb
          rcases hb2 b hb with ⟨n, hn⟩ | ⟨a, ha, hd⟩
          · exact ⟨(hk _ hn).2, (hk _ hn).1⟩
          · obtain ⟨a', ha', rfl⟩ := List.mem_map.1 ha
            exact (scalar_ok (eargs_defaults c a' ha' _ hd)).2.symm
        have each : ∀ (i : Nat) (hi : i < vals.length) (hi' : i < bound.length) (hi'' : i < (eargs c).length), bound[i].1 = ((eargs c)[i]).kind ∧
            conv env m bound[i].1 bound[i].2 = .ok vals[i] := by
          intro i hi hi' hi''
          constructor
          · have : (bound.map Prod.fst)[i]'(by simpa using hi') = (((eargs c).map EArg.arg).map Arg.kind)[i]'(by simpa using hi'') := by
              simp only [hb1]
            simpa [EArg.arg] using this
          · apply hv2 (bound[i], vals[i])
            apply List.mem_of_getElem? (i := i)
            rw [List.getElem?_zip_eq_some]
            exact ⟨List.getElem?_eq_getElem hi', List.getElem?_eq_getElem hi⟩
        refine ⟨hlen.symm, rfl, rfl, ?_, ?_, ?_⟩
        · intro p hp
          obtain ⟨i, hi, rfl⟩ := List.getElem_of_mem hp
          simp only [List.length_zip] at hi
          have hi1 : i < (eargs c).length := by omega
          have hi2 : i < vals.length := by omega
          simp only [List.getElem_zip]
          obtain ⟨h1, h2⟩ := each i hi2 (by omega) hi1
          have hk := eargs_kinds c _ (List.getElem_mem hi1)
          rw [← h1]
          exact conv_idem env hs m _ (by rw [h1]; exact hk.2) (by rw [h1]; exact hk.1) _ _ h2
        · intro v hv
          obtain ⟨i, hi, rfl⟩ := List.getElem_of_mem hv
          obtain ⟨h1, h2⟩ := each i hi (by omega) (by omega)
          have ho := argOk _ (List.getElem_mem (by omega : i < bound.length))
          exact conv_ok env m _ _ _ ho.1 ho.2 h2
        · simp only
          unfold convUids at hu
          split at hu
          · cases hu; rfl
          · split at hu
            · split at hu
              · cases hu
              · rename_i hc; cases hu; simpa using hc
            · cases hu
          · cases hu

/-- What constructors make is well typed, and what was well typed stays so. -/
theorem constructE_wellTyped {env : Env} (hs : Sane env) {m : Mem} (h : WellTyped env m) {c : ECls} {kwargs : List (String × V)}
    (hk : ∀ e ∈ kwargs, okV env m e.2 ∧ strKeys e.2) {o : Nat} {m' : Mem} (hc : constructE env m c kwargs = .ok (o, m')) :
    WellTyped env m' ∧ Grows m m' := by
  unfold constructE at hc
  split at hc
  · cases hc
  · rename_i x hx
    cases hc
    obtain ⟨h1, vals, h2⟩ := newEntity_shape hs hk hx
    refine ⟨linkBack_wellTyped (h.append h2 ?_) _ _, (Grows.append m [x]).trans (linkBack_grows _ _ _)⟩
    intro hi
    rw [← h1, hi]
    exact ⟨.none, .none, rfl, .inl rfl, .inl rfl⟩

/-- Everything in memory was made by constructors, from values and objects that were made before. -/
inductive Built (env : Env) : Mem → Prop
  | nil : Built env []
  | call (m : Mem) (c : ECls) (kwargs : List (String × V)) (o : Nat) (m' : Mem) : Built env m →
      (∀ e ∈ kwargs, Made env m e.2 ∧ strKeys e.2) → constructE env m c kwargs = .ok (o, m') → Built env m'

theorem Built.wellTyped {env : Env} (hs : Sane env) {m : Mem} (h : Built env m) : WellTyped env m := by
  induction h with
  | nil => intro o x hx; simp at hx
  | call m c kwargs o m' _ hk hc ih => exact (constructE_wellTyped hs ih (fun e he => ⟨(hk e he).1.okV hs, (hk e he).2⟩) hc).1

/-! ## A sample -/

/-- call constructors one after the other -/
def callAll (env : Env) : Mem → List (ECls × List (String × V)) → Except PyErr Mem
  | m, [] => .ok m
  | m, (c, kwargs) :: rest => match constructE env m c kwargs with
    | .error e => .error e
    | .ok (_, m') => callAll env m' rest

theorem built_callAll {env : Env} (calls : List (ECls × List (String × V))) {m m' : Mem} (hb : Built env m)
    (hm : ∀ c ∈ calls, ∀ e ∈ c.2, ∀ m, Made env m e.2 ∧ strKeys e.2) (h : callAll env m calls = .ok m') : Built env m' := by
  induction calls generalizing m with
  | nil => cases h; exact hb
  | cons c calls ih =>
    obtain ⟨c, kwargs⟩ := c
    simp only [callAll] at h
    split at h
    · cases h
    · rename_i o m1 hc
      exact ih (Built.call m c kwargs o m1 hb (fun e he => hm (c, kwargs) (by simp) e he m) hc) (fun c hc => hm c (by simp [hc])) h

/-- ids in the scope "id" -/
def idArg (i : String) : String × V := ("uids", .dict [.str "id"] [.str i])

/-- an ingredient spec and run, a process with an output, and a measurement of it -/
def sampleCalls : List (ECls × List (String × V)) :=
  [(.propertyTemplate, [("name", .str "t"), ("bounds", .obj "integer_bounds" ["lower_bound", "upper_bound"] [.int 0, .int 5]), idArg "t"]),
   (.materialTemplate, [("name", .str "mt"), ("properties", .list [.ref 0]), idArg "mt"]),
   (.ingredientSpec, [("name", .str "i"), ("labels", .list [.str "l"]), idArg "is"]),
   (.processRun, [("name", .str "p"), idArg "p"]),
   (.materialRun, [("name", .str "m"), ("process", .ref 3), ("tags", .list [.str "x"]), idArg "m"]),
   (.materialRun, [("name", .str "n"), ("notes", .str "another"), idArg "n"]),
   (.ingredientRun, [("process", .ref 3), ("material", .ref 5), ("spec", .ref 2), idArg "i"]),
   (.measurementRun, [("name", .str "u"), ("material", .ref 4), idArg "u"])]

/-- what they make -/
def sample : Mem := match callAll plainEnv [] sampleCalls with
  | .ok m => m
  | .error _ => []

theorem sample_eq : callAll plainEnv [] sampleCalls = .ok sample ∧ sample.length = 8 := by decide +kernel

mutual
/-- `wf` and `noTuple`, decided -/
def tidy : V → Bool
  | .list l => tidies l
  | .tuple _ => false
  | .dict ks vs => decide (ks.length = vs.length) && (match strings ks with | some names => decide (names.Nodup ∧ "type" ∉ names) | none => false) && tidies vs
  | .obj _ ns vs => decide (ns.length = vs.length) && tidies vs
  | _ => true
def tidies : List V → Bool
  | [] => true
  | v :: vs => tidy v && tidies vs
end

mutual
theorem tidy_spec (v : V) (h : tidy v = true) : wf v ∧ noTuple v := by
  cases v with
  | list l => simp only [tidy] at h; simp only [wf, noTuple]; exact tidies_spec l h
  | tuple l => simp [tidy] at h
  | dict ks vs =>
    simp only [tidy, Bool.and_eq_true, decide_eq_true_eq] at h
    obtain ⟨⟨h1, h2⟩, h3⟩ := h
    obtain ⟨w, t⟩ := tidies_spec vs h3
    simp only [wf, noTuple]
    refine ⟨⟨⟨h1, ?_⟩, w⟩, t⟩
    cases hs : strings ks with
    | none => simp [hs] at h2
    | some names => simp [hs] at h2; exact ⟨names, rfl, h2.1, h2.2⟩
  | obj t ns vs =>
    simp only [tidy, Bool.and_eq_true, decide_eq_true_eq] at h
    obtain ⟨w, t⟩ := tidies_spec vs h.2
    simp only [wf, noTuple]
    exact ⟨⟨h.1, w⟩, t⟩
  | _ => simp [wf, noTuple]
termination_by structural v
theorem tidies_spec (l : List V) (h : tidies l = true) : wfs l ∧ noTuples l := by
  cases l with
  | nil => simp [wfs, noTuples]
  | cons v vs =>
    simp only [tidies, Bool.and_eq_true] at h
    obtain ⟨a, b⟩ := tidy_spec v h.1
    obtain ⟨c, d⟩ := tidies_spec vs h.2
    simp [wfs, noTuples, a, b, c, d]
termination_by structural l
end

theorem sample_built : Built plainEnv sample := by
  refine built_callAll sampleCalls Built.nil ?_ sample_eq.1
  have hb : ∀ m, Made plainEnv m (.obj "integer_bounds" ["lower_bound", "upper_bound"] [.int 0, .int 5]) := by
    intro m
    refine Made.obj "integer_bounds" _ [("lower_bound", .int 0), ("upper_bound", .int 5)] _ rfl rfl ?_ ?_
    · intro kv h
      simp only [List.mem_cons, List.not_mem_nil, or_false] at h
      rcases h with rfl | rfl <;> exact Made.int _
    · intro kv h
      simp only [List.mem_cons, List.not_mem_nil, or_false] at h
      rcases h with rfl | rfl <;> simp [strKeys]
  have hd : ∀ m i, Made plainEnv m (idArg i).2 ∧ strKeys (idArg i).2 := by
    intro m i
    refine ⟨Made.dict _ _ ?_, ?_⟩
    · intro v hv; simp at hv; subst hv; exact Made.str _
    · simp [idArg, strKeys, strings]
  intro c hc e he m
  simp only [sampleCalls, List.mem_cons, List.not_mem_nil, or_false] at hc
  rcases hc with rfl | rfl | rfl | rfl | rfl | rfl | rfl | rfl <;> simp only [List.mem_cons, List.not_mem_nil, or_false] at he
  · rcases he with rfl | rfl | rfl
    · exact ⟨Made.str _, by simp [strKeys]⟩
    · exact ⟨hb m, by simp [strKeys]⟩
    · exact hd m _
  · rcases he with rfl | rfl | rfl
    · exact ⟨Made.str _, by simp [strKeys]⟩
    · exact ⟨Made.list _ (by intro v hv; simp at hv; subst hv; exact Made.ref _), by simp [strKeys]⟩
    · exact hd m _
  · rcases he with rfl | rfl | rfl
    · exact ⟨Made.str _, by simp [strKeys]⟩
    · exact ⟨Made.list _ (by intro v hv; simp at hv; subst hv; exact Made.str _), by simp [strKeys]⟩
    · exact hd m _
  · rcases he with rfl | rfl
    · exact ⟨Made.str _, by simp [strKeys]⟩
    · exact hd m _
  · rcases he with rfl | rfl | rfl | rfl
    · exact ⟨Made.str _, by simp [strKeys]⟩
    · exact ⟨Made.ref _, by simp [strKeys]⟩
    · exact ⟨Made.list _ (by intro v hv; simp at hv; subst hv; exact Made.str _), by simp [strKeys]⟩
    · exact hd m _
  · rcases he with rfl | rfl | rfl
    · exact ⟨Made.str _, by simp [strKeys]⟩
    · exact ⟨Made.str _, by simp [strKeys]⟩
    · exact hd m _
  · rcases he with rfl | rfl | rfl | rfl
    · exact ⟨Made.ref _, by simp [strKeys]⟩
    · exact ⟨Made.ref _, by simp [strKeys]⟩
    · exact ⟨Made.ref _, by simp [strKeys]⟩
    · exact hd m _
  · rcases he with rfl | rfl | rfl
    · exact ⟨Made.str _, by simp [strKeys]⟩
    · exact ⟨Made.ref _, by simp [strKeys]⟩
    · exact hd m _

end Verif.Json
