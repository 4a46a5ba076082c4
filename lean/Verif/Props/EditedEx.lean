import Verif.Props.Edited
import Verif.Props.InplaceLinksEx
/-!
# C67: examples, and what goes wrong without care
-/

set_option linter.unusedSimpArgs false
set_option linter.unusedVariables false
set_option linter.unusedSectionVars false

namespace Verif.Assign
open Verif.Py Verif.Value Verif.Schema Verif.Json Verif.Substitute Verif.Inplace

/-- one step of a history -/
inductive Step where
  | call (c : ECls) (kwargs : List (String × V))
  | set (o : Nat) (n : String) (v : V)
  | change (o : Nat) (n : String) (l : List V)
  | uids (o : Nat) (v : V)
  | addUid (o : Nat) (s i : String)

/-- what an entity points to, by a two-way link -/
def towards (m : Mem) (a : Nat) : Option (String × Nat) := (clsAt m a).bind fun c => (backRef c).bind fun e => match attrAt m a e.1 with
  | some (.ref b) => some (e.2, b)
  | _ => none

theorem towards_iff {m : Mem} {n : String} {a b : Nat} : Points m n a b ↔ towards m a = some (n, b) := by
  rw [points_attr]
  unfold towards
  constructor
  · rintro ⟨c, there, e1, e2, e3⟩
    simp [e1, e2, e3]
  · intro h
    cases hc : clsAt m a with
    | none => simp [hc] at h
    | some c =>
      cases hb : backRef c with
      | none => simp [hc, hb] at h
      | some e =>
        simp only [hc, hb, Option.bind_some] at h
        split at h
        · rename_i b' hb'
          cases h
          exact ⟨c, e.1, rfl, hb, hb'⟩
        · cases h

/-- `OneOutput`, decided -/
def oneB (m : Mem) : Bool := (List.range m.length).all fun a => (List.range m.length).all fun c =>
  !(towards m a).any (fun e => decide (e.1 = "_output_material")) || decide (towards m c ≠ towards m a) || decide (c = a)

theorem oneB_spec {m : Mem} (h : oneB m = true) : OneOutput m := by
  intro a c b h1 h2
  have ha := points_lt h1
  have hc := points_lt h2
  rw [towards_iff] at h1 h2
  have := List.all_eq_true.1 (List.all_eq_true.1 h a (List.mem_range.2 ha)) c (List.mem_range.2 hc)
  simpa [h1, h2] using this

/-- `Alone`, decided -/
def aloneB (same : Mem → Nat → Nat → Bool) (m : Mem) (o : Nat) : Bool := (List.range m.length).all fun q =>
  decide (q = o) || decide (towards m q = none) || decide (towards m q ≠ towards m o) || !same m q o

theorem aloneB_spec {same : Mem → Nat → Nat → Bool} {m : Mem} {o : Nat} (h : aloneB same m o = true) : Alone same m o := by
  intro q k p hq h1 h2
  have hl := points_lt h1
  rw [towards_iff] at h1 h2
  have := List.all_eq_true.1 h q (List.mem_range.2 hl)
  simpa [h1, h2, hq] using this

/-- a history, which is carried out and checked -/
def play (env : Env) (same : Mem → Nat → Nat → Bool) (care : Bool) : Mem → List Step → Except PyErr Mem
  | m, [] => .ok m
  | m, .call c kwargs :: rest => match constructE env m c kwargs with
    | .error e => .error e
    | .ok (_, m') => if kwargs.all (fun e => easy e.2) && (!care || oneB m') then play env same care m' rest else .error .other
  | m, .set o n v :: rest => match assign env same m o n v with
    | .error e => .error e
    | .ok m' => if easy v && decide (n ≠ "bounds") && (!care || (oneB m' && aloneB same m o)) then play env same care m' rest else .error .other
  | m, .change o n l' :: rest => match value m o n with
    | some (.list l) => match assign env same m o n (.list l') with
      | .error e => .error e
      | .ok m' => if l'.all (fun v => decide (v ∈ l) || easy v) then play env same care m' rest else .error .other
    | _ => .error .other
  | m, .uids o v :: rest => match assignUids env m o v with
    | .error e => .error e
    | .ok m' => play env same care m' rest
  | m, .addUid o s i :: rest => match Assign.addUid env m o s i with
    | .error e => .error e
    | .ok m' => play env same care m' rest

theorem play_edited {env : Env} {same : Mem → Nat → Nat → Bool} {care : Bool} (steps : List Step) : ∀ {m m' : Mem}, Edited env same care m →
    play env same care m steps = .ok m' → Edited env same care m' := by
  induction steps with
  | nil => intro m m' h e; cases e; exact h
  | cons s rest ih =>
    intro m m' h e
    cases s with
    | call c kwargs =>
      simp only [play] at e
      split at e
      · cases e
      · rename_i o m1 hc
        split at e
        · rename_i hk
          simp only [Bool.and_eq_true, Bool.or_eq_true, Bool.not_eq_true'] at hk
          refine ih (.call m c kwargs o m1 h (fun e he => easy_made _ (List.all_eq_true.1 hk.1 e he)) hc (fun hcare => ?_)) e
          exact oneB_spec (hk.2.resolve_left (by simp [hcare]))
        · cases e
    | set o n v =>
      simp only [play] at e
      split at e
      · cases e
      · rename_i m1 hc
        split at e
        · rename_i hk
          simp only [Bool.and_eq_true, Bool.or_eq_true, Bool.not_eq_true', decide_eq_true_eq] at hk
          refine ih (.assign m o n v m1 h (easy_made _ hk.1.1).1 (easy_made (env := env) (m := m) _ hk.1.1).2 hk.1.2 hc (fun hcare => ?_)) e
          have := hk.2.resolve_left (by simp [hcare])
          exact ⟨oneB_spec this.1, fun _ => aloneB_spec this.2⟩
        · cases e
    | change o n l' =>
      simp only [play] at e
      split at e
      · rename_i l hl
        split at e
        · cases e
        · rename_i m1 hc
          split at e
          · rename_i hk
            refine ih (.change m o n l l' m1 h hl (fun v hv => ?_) hc) e
            have := List.all_eq_true.1 hk v hv
            simp only [Bool.or_eq_true, decide_eq_true_eq] at this
            exact this.imp_right (fun h => (easy_made _ h).1)
          · cases e
      · cases e
    | uids o v =>
      simp only [play] at e
      split at e
      · cases e
      · rename_i m1 hc
        exact ih (.uids m o v m1 h hc) e
    | addUid o s i =>
      simp only [play] at e
      split at e
      · cases e
      · rename_i m1 hc
        exact ih (.addUid m o s i m1 h hc) e

/-- equal if all attributes and ids are the same -/
def sameAll (m : Mem) (q o : Nat) : Bool := decide (m[q]? = m[o]?)

/-- A process with two ingredients, two materials and a measurement. The process gets the other material, an ingredient goes to another process, its spec is
set and replaced by a link, the measurement goes to the other material; tags are set and changed; ids are set and added. -/
def deeds : List Step :=
  [.call .processRun [("name", .str "p"), idArg "p"],
   .call .processRun [("name", .str "q"), idArg "q"],
   .call .ingredientSpec [("name", .str "i"), ("labels", .list [.str "l"]), idArg "is"],
   .call .ingredientRun [("process", .ref 0), ("notes", .str "first"), idArg "a"],
   .call .ingredientRun [("process", .ref 0), ("notes", .str "second"), idArg "b"],
   .call .materialRun [("name", .str "m"), ("process", .ref 0), ("tags", .list [.str "x", .str "y"]), idArg "m"],
   .call .materialRun [("name", .str "n"), idArg "n"],
   .call .measurementRun [("name", .str "u"), ("material", .ref 5), idArg "u"],
   .set 5 "process" .none, .set 6 "process" (.ref 0), .set 3 "process" (.ref 1), .set 4 "spec" (.ref 2), .set 4 "spec" (.link "id" "far"), .set 7 "material" (.ref 6),
   .set 6 "tags" (.tuple [.str "t"]), .change 5 "tags" [.str "y", .str "z"], .uids 7 (.dict [.str "id"] [.str "v"]), .addUid 7 "other" "w", .set 4 "material" (.ref 6)]

/-- what they make -/
def done : Mem := match play plainEnv sameAll true [] deeds with
  | .ok m => m
  | .error _ => []

theorem done_eq : play plainEnv sameAll true [] deeds = .ok done ∧ done.length = 8 := by decide +kernel

theorem done_edited : Edited plainEnv sameAll true done := play_edited deeds .nil done_eq.1

example : attrAt done 0 "_output_material" = some (.ref 6) ∧ attrAt done 0 "_ingredients" = some (.list [.ref 4]) ∧ attrAt done 1 "_ingredients" = some (.list [.ref 3]) ∧
    attrAt done 4 "_name" = some (.str "i") ∧ attrAt done 4 "_labels" = some (.list [.str "l"]) ∧ attrAt done 5 "_measurements" = some (.list []) ∧
    attrAt done 6 "_measurements" = some (.list [.ref 7]) ∧ value done 6 "tags" = some (.list [.str "t"]) ∧ value done 5 "tags" = some (.list [.str "y", .str "z"]) := by
  decide +kernel

theorem done_free (o : Nat) (x : EObj) (hx : done[o]? = some x) : FreePlain (asDict done x) ∧ ∀ e ∈ asDict done x, FreeInside e.2 := by
  have key : done.all (fun x => Substitute.freeOk (asDict done x) && (asDict done x).all (fun e => Substitute.insideOk e.2)) = true := by decide +kernel
  have := List.all_eq_true.1 key x (List.mem_of_getElem? hx)
  rw [Bool.and_eq_true] at this
  exact ⟨Substitute.freeOk_spec this.1, fun e he => Substitute.insideOk_spec (List.all_eq_true.1 this.2 e he)⟩

/-- the hypotheses of `C67_repr` are met -/
example : ∃ t, Repr.reprV done (.list [.ref 4, .ref 7]) = .ok t ∧ Repr.Shows done (.list [.ref 4, .ref 7]) t := by
  refine C67_repr plainEnv_sane done_edited ?_ (fun o x hx _ => done_free o x hx)
  intro o ho
  rw [done_eq.2]
  simp [V.subs, subss] at ho
  omega

theorem done_uids {o : Nat} {s i : String} (h : Carries plainEnv.lower done o s i) : ∃ x, done[o]? = some x ∧ (s, i) ∈ x.uids ∧ s ≠ "auto" ∧ i ≠ "far" := by
  obtain ⟨x, hx, sc, h1, h2⟩ := h
  have key : ∀ x ∈ done, ∀ u ∈ x.uids, u.1 ≠ "auto" ∧ u.2 ≠ "far" := by decide +kernel
  have h2 : sc = s := h2
  subst h2
  exact ⟨x, hx, h1, key x (List.mem_of_getElem? hx) _ h1⟩

theorem done_ref {o : Nat} (h : Reachable done false (.ref 6) (.ref o)) : o < done.length := by
  rcases reach_in h with h | ⟨x, hx, f, hf, h⟩ | ⟨s, h⟩
  · simp [V.subs] at h
    subst h
    decide +kernel
  · have key : ∀ x ∈ done, ∀ f ∈ x.fields, ∀ w ∈ f.2.subs, (match w with | .ref p => decide (p < done.length) | _ => true) = true := by decide +kernel
    simpa using key x hx f hf _ h
  · cases h

theorem done_link {s i : String} (h : Reachable done false (.ref 6) (.link s i)) : s = "id" ∧ i = "far" := by
  rcases reach_in h with h | ⟨x, hx, f, hf, h⟩ | ⟨s, h⟩
  · simp [V.subs] at h
  · have key : ∀ x ∈ done, ∀ f ∈ x.fields, ∀ w ∈ f.2.subs, (match w with | .link s i => decide (s = "id" ∧ i = "far") | _ => true) = true := by decide +kernel
    simpa using key x hx f hf _ h
  · cases h

/-- the hypotheses of `C67_round_trip_partial` and `C67_copy_equal_partial` are met -/
theorem done_meets : Flattenable plainEnv done (.ref 6) ∧ (∀ o, Reachable done false (.ref 6) (.ref o) → o < done.length) ∧
    okV plainEnv done (.ref 6) ∧ Unambiguous plainEnv.lower done (.ref 6) ∧ Foreign plainEnv.lower done (.ref 6) ∧
    Fresh plainEnv.lower done (.ref 6) "auto" xs 0 ∧ Reachable done false (.ref 6) (.link "id" "far") := by
  refine ⟨flattenOk_spec (C67_well_typed plainEnv_sane done_edited) (by decide +kernel), fun o => done_ref, ?_, ?_, ?_, ⟨xs_inj, ?_, ?_⟩, ?_⟩
  · simp [okV]
  · intro o p s i _ _ h1 h2
    obtain ⟨x, hx, e1, _⟩ := done_uids h1
    obtain ⟨y, hy, e2, _⟩ := done_uids h2
    have key : ∀ a ∈ List.range done.length, ∀ b ∈ List.range done.length, a ≠ b → ∀ u ∈ (done[a]?.map EObj.uids).getD [], u ∉ (done[b]?.map EObj.uids).getD [] := by
      decide +kernel
    apply Classical.byContradiction
    intro hne
    exact key o (List.mem_range.2 (List.getElem?_eq_some_iff.1 hx).1) p (List.mem_range.2 (List.getElem?_eq_some_iff.1 hy).1) hne (s, i)
      (by rw [hx]; exact e1) (by rw [hy]; exact e2)
  · intro s i p h _ hc
    obtain ⟨_, _, _, _, h2⟩ := done_uids hc
    exact h2 (done_link h).2
  · intro k _ p _ hc
    obtain ⟨_, _, _, h, _⟩ := done_uids hc
    simp [plainEnv] at h
  · intro k _ s h
    rw [(done_link h).1]
    simp [plainEnv]
  · have f1 : ∃ x, done[6]? = some x ∧ ("_process", V.ref 0) ∈ x.fields := by
      have : (done[6]?).any (fun x => decide (("_process", V.ref 0) ∈ x.fields)) = true := by decide +kernel
      rw [Option.any_eq_true] at this
      obtain ⟨x, hx, h⟩ := this
      exact ⟨x, hx, by simpa using h⟩
    have f2 : ∃ x, done[0]? = some x ∧ ("_ingredients", V.list [.ref 4]) ∈ x.fields := by
      have : (done[0]?).any (fun x => decide (("_ingredients", V.list [.ref 4]) ∈ x.fields)) = true := by decide +kernel
      rw [Option.any_eq_true] at this
      obtain ⟨x, hx, h⟩ := this
      exact ⟨x, hx, by simpa using h⟩
    have f3 : ∃ x, done[4]? = some x ∧ ("_spec", V.link "id" "far") ∈ x.fields := by
      have : (done[4]?).any (fun x => decide (("_spec", V.link "id" "far") ∈ x.fields)) = true := by decide +kernel
      rw [Option.any_eq_true] at this
      obtain ⟨x, hx, h⟩ := this
      exact ⟨x, hx, by simpa using h⟩
    obtain ⟨x1, h1, m1⟩ := f1
    obtain ⟨x2, h2, m2⟩ := f2
    obtain ⟨x3, h3, m3⟩ := f3
    exact .step (.step (.step (.step (.refl _) (.field h1 m1 (by simp))) (.field h2 m2 (by simp))) (.list (by simp))) (.field h3 m3 (by simp))

example : ∃ n m1 t M, (∀ n' ≥ n, dumps plainEnv "auto" xs n' done 0 (.ref 6) = some (.ok (t, M))) ∧ Numbered "auto" done m1 (.ref 6) ∧ Extends m1 M ∧
    ∀ M0 : Mem, ∃ w m' φ, loads plainEnv M0 t = .ok (w, m') ∧ Iso m1 (.ref 6) m' w φ ∧ ∀ o, Reachable m1 false (.ref 6) (.ref o) → M0.length ≤ φ o := by
  obtain ⟨h1, h2, h3, h4, h5, h6, _⟩ := done_meets
  exact C67_round_trip_partial plainEnv_sane done_edited h1 h2 (by simp [Json.wf]) (by simp [Json.noTuple]) h3 h4 h5 "auto" xs 0 (by decide) h6

/-- the hypothesis of `C67_accepts_partial` is met, and not for all values -/
example : (∃ m', assign plainEnv sameAll done 7 "material" (.ref 5) = .ok m') ∧ convertTo plainEnv done 7 "material" (.ref 0) = .error .typeError := by
  refine ⟨C67_accepts_partial plainEnv_sane done_edited (w := .ref 5) ?_, ?_⟩ <;> decide +kernel

/-- the cases of `C67_ids`: an environment where `lower` takes capitals away, here for one letter -/
example : let env : Env := { plainEnv with lower := fun s => if s = "ID" then "id" else s }
    (∃ x, done[7]? = some x ∧ x.uids = [("id", "v"), ("other", "w")]) ∧ Assign.addUid env done 7 "ID" "z" = .error .valueError ∧
    (∃ m', Assign.addUid env done 7 "id" "z" = .ok m' ∧ (m'[7]?.map EObj.uids) = some [("id", "z"), ("other", "w")]) ∧
    assignUids env done 7 (.dict [.str "id", .str "ID"] [.str "v", .str "v"]) = .error .valueError := by
  refine ⟨⟨done[7]'(by rw [done_eq.2]; decide), List.getElem?_eq_getElem _, by decide +kernel⟩, by decide +kernel, ?_, by decide +kernel⟩
  have h : (match Assign.addUid { plainEnv with lower := fun s => if s = "ID" then "id" else s } done 7 "id" "z" with
    | .ok m' => decide ((m'[7]?.map EObj.uids) = some [("id", "z"), ("other", "w")])
    | .error _ => false) = true := by decide +kernel
  split at h
  · rename_i m' hm
    exact ⟨m', hm, of_decide_eq_true h⟩
  · cases h

/-! ## Without care -/

/-- integer bounds are compared, others are left out -/
def intEnv : Env := { plainEnv with contains := fun a b => match a, b with
  | .obj "integer_bounds" _ [.int l, .int u], .obj "integer_bounds" _ [.int l', .int u'] => decide (l ≤ l' ∧ u' ≤ u)
  | _, _ => false }

theorem intEnv_sane : Sane intEnv := ⟨plainEnv_sane.units, plainEnv_sane.text⟩

/-- `IntegerBounds(l, u)` -/
def ints (l u : Int) : V := .obj "integer_bounds" ["lower_bound", "upper_bound"] [.int l, .int u]

theorem made_nine (m : Mem) : Made intEnv m (ints 0 9) := by
  refine .obj "integer_bounds" _ [("lower_bound", .int 0), ("upper_bound", .int 9)] _ rfl rfl ?_ ?_ <;> simp [strKeys]
  exact ⟨.int 0, .int 9⟩

theorem made_five (m : Mem) : Made intEnv m (ints 0 5) := by
  refine .obj "integer_bounds" _ [("lower_bound", .int 0), ("upper_bound", .int 5)] _ rfl rfl ?_ ?_ <;> simp [strKeys]
  exact ⟨.int 0, .int 5⟩

/-- C67: the bounds of a template can be made so small that an object template's own value, which was fine, is refused, and so is its serialised form. -/
theorem C67_bounds_counterexample : ∃ m m', Edited intEnv sameAll true m ∧ assign intEnv sameAll m 0 "bounds" (ints 0 3) = .ok m' ∧
    value m' 1 "properties" = some (.list [.list [.ref 0, ints 0 5]]) ∧
    assign intEnv sameAll m 1 "properties" (.list [.list [.ref 0, ints 0 5]]) = .ok m ∧
    assign intEnv sameAll m' 1 "properties" (.list [.list [.ref 0, ints 0 5]]) = .error .valueError ∧
    ∃ t M, dumps intEnv "auto" xs 99 m' 0 (.ref 1) = some (.ok (t, M)) ∧ loads intEnv [] t = .error .valueError := by
  have h : (match constructE intEnv [] .propertyTemplate [("name", .str "t"), ("bounds", ints 0 9)] with
    | .ok (_, m1) => (match constructE intEnv m1 .materialTemplate [("name", .str "m"), ("properties", .list [.list [.ref 0, ints 0 5]])] with
      | .ok (_, m) => (match assign intEnv sameAll m 0 "bounds" (ints 0 3) with
        | .ok m' => decide (oneB m1 = true ∧ oneB m = true ∧ value m' 1 "properties" = some (.list [.list [.ref 0, ints 0 5]]) ∧
            assign intEnv sameAll m 1 "properties" (.list [.list [.ref 0, ints 0 5]]) = .ok m ∧
            assign intEnv sameAll m' 1 "properties" (.list [.list [.ref 0, ints 0 5]]) = .error .valueError) &&
            (match dumps intEnv "auto" xs 99 m' 0 (.ref 1) with
              | some (.ok (t, _)) => decide (loads intEnv [] t = .error .valueError)
              | _ => false)
        | .error _ => false)
      | .error _ => false)
    | .error _ => false) = true := by decide +kernel
  split at h
  · rename_i o1 m1 h1
    split at h
    · rename_i o2 m h2
      split at h
      · rename_i m' h3
        obtain ⟨g, h7⟩ := (Bool.and_eq_true _ _).mp h
        obtain ⟨e1, e2, e3, e4, e5⟩ := of_decide_eq_true g
        refine ⟨m, m', ?_, h3, e3, e4, e5, ?_⟩
        · refine .call _ _ _ _ _ (.call _ _ _ _ _ .nil ?_ h1 (fun _ => oneB_spec e1)) ?_ h2 (fun _ => oneB_spec e2)
          · intro e he
            simp only [List.mem_cons, List.not_mem_nil, or_false] at he
            rcases he with rfl | rfl
            · exact easy_made _ (by decide)
            · exact ⟨made_nine _, by simp [strKeys, ints]⟩
          · intro e he
            simp only [List.mem_cons, List.not_mem_nil, or_false] at he
            rcases he with rfl | rfl
            · exact easy_made _ (by decide)
            · refine ⟨.list _ (fun v hv => ?_), by simp [strKeys]⟩
              simp only [List.mem_cons, List.not_mem_nil, or_false] at hv
              subst hv
              refine .list _ (fun v hv => ?_)
              simp only [List.mem_cons, List.not_mem_nil, or_false] at hv
              rcases hv with rfl | rfl
              · exact .ref _
              · exact made_five _
        · split at h7
          · rename_i t M hd
            exact ⟨t, M, hd, of_decide_eq_true h7⟩
          · cases h7
      · cases h
    · cases h
  · cases h

/-- C67: without care: a process that gets a second output still names only that -/
theorem C67_shared_process_counterexample : ∃ m, Edited plainEnv sameAll false m ∧ attrAt m 1 "_process" = some (.ref 0) ∧ attrAt m 2 "_process" = some (.ref 0) ∧
    attrAt m 0 "_output_material" = some (.ref 2) ∧ ¬ TwoWay m := by
  have h : (match play plainEnv sameAll false [] [.call .processRun [("name", .str "p")], .call .materialRun [("name", .str "m"), ("process", .ref 0)],
      .call .materialRun [("name", .str "n")], .set 2 "process" (.ref 0)] with
    | .ok m => decide (attrAt m 1 "_process" = some (.ref 0) ∧ attrAt m 2 "_process" = some (.ref 0) ∧ attrAt m 0 "_output_material" = some (.ref 2) ∧
        clsAt m 1 = some .materialRun)
    | .error _ => false) = true := by decide +kernel
  split at h
  · rename_i m hm
    obtain ⟨h1, h2, h3, h4⟩ := of_decide_eq_true h
    refine ⟨m, play_edited _ .nil hm, h1, h2, h3, fun ht => ?_⟩
    have hp : Points m "_output_material" 1 0 := points_attr.2 ⟨.materialRun, "_process", h4, by decide, h1⟩
    cases ht 0 "_output_material" _ (by decide) h3 with
    | one a e hp' h => exact absurd (h 1 hp) (by decide)
  · cases h

/-- C67: without care: one of two equal ingredients goes, and the process forgets the other; when that goes too the assignment raises ValueError, although `None` is fine -/
theorem C67_equal_sibling_counterexample : ∃ m, Edited plainEnv (pyEq 99 3) false m ∧ attrAt m 0 "_ingredients" = some (.list [.ref 2]) ∧
    attrAt m 1 "_process" = some (.ref 0) ∧ attrAt m 2 "_process" = some .none ∧ ¬ TwoWay m ∧
    ∃ m', Edited plainEnv (pyEq 99 3) false m' ∧ convertTo plainEnv m' 1 "process" .none = .ok .none ∧
      assign plainEnv (pyEq 99 3) m' 1 "process" .none = .error .valueError := by
  have h : (match play plainEnv (pyEq 99 3) false [] [.call .processRun [("name", .str "p")], .call .ingredientRun [("process", .ref 0)],
      .call .ingredientRun [("process", .ref 0)], .set 2 "process" .none] with
    | .ok m => decide (attrAt m 0 "_ingredients" = some (.list [.ref 2]) ∧ attrAt m 1 "_process" = some (.ref 0) ∧ attrAt m 2 "_process" = some .none ∧
        clsAt m 1 = some .ingredientRun) &&
        (match play plainEnv (pyEq 99 3) false m [.set 2 "notes" (.str "gone")] with
          | .ok m' => decide (convertTo plainEnv m' 1 "process" .none = .ok .none ∧ assign plainEnv (pyEq 99 3) m' 1 "process" .none = .error .valueError)
          | .error _ => false)
    | .error _ => false) = true := by decide +kernel
  split at h
  · rename_i m hm
    obtain ⟨g, h7⟩ := (Bool.and_eq_true _ _).mp h
    obtain ⟨h1, h2, h3, h4⟩ := of_decide_eq_true g
    have he : Edited plainEnv (pyEq 99 3) false m := play_edited _ .nil hm
    refine ⟨m, he, h1, h2, h3, fun ht => ?_, ?_⟩
    · have hp : Points m "_ingredients" 1 0 := points_attr.2 ⟨.ingredientRun, "_process", h4, by decide, h2⟩
      generalize hv : V.list [.ref 2] = v at h1
      cases ht 0 "_ingredients" v (by decide) h1 with
      | many as hne hnd hpt =>
        have := (hpt 1).2 hp
        cases as with
        | nil => cases this
        | cons a as => cases as with
          | nil =>
            simp at hv this
            omega
          | cons b as => simp at hv
      | none e => exact absurd e (by decide)
      | one a e => exact absurd e (by decide)
    · split at h7
      · rename_i m' hm'
        obtain ⟨k1, k2⟩ := of_decide_eq_true h7
        exact ⟨m', play_edited _ he hm', k1, k2⟩
      · cases h7
  · cases h

end Verif.Assign
