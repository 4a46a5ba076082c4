import Verif.Props.Resolve
/-!
# Resolving links with the index of a collection

C35: `make_index` (util/impl.py:246-267) and `substitute_objects` with its result. Model: `Verif.Model.Substitute`.
-/

set_option linter.unusedSimpArgs false
set_option linter.unusedVariables false
set_option linter.unusedSectionVars false

namespace Verif.Substitute
open Verif.Json Verif.Py Verif.Value Verif.Traverse Verif.Schema

/-! ## The index -/

/-- the entity `o` has the id `u`, in exactly this scope -/
def HasId (m : Mem) (o : Nat) (u : String × String) : Prop := ∃ x, m[o]? = some x ∧ u ∈ x.uids

/-- `o` is an entity of the collection: one of its elements or what they point to, not counting back references -/
def InCollection (m : Mem) (coll : V) (o : Nat) : Prop := o < m.length ∧ Reachable m true coll (.ref o)

/-- what is collected for one entity -/
def entriesOf (m : Mem) : V → List ((String × String) × Nat)
  | .ref o => match m[o]? with
    | some x => x.uids.map (fun u => (u, o))
    | none => []
  | _ => []

theorem calls_index (m : Mem) : ∀ (order : List V) (acc : List ((String × String) × Nat)), (∀ x ∈ order, ∃ o, o < m.length ∧ x = .ref o) →
    calls (collect indexEntries) ((m, ()), acc) order = .ok ((m, ()), acc ++ order.flatMap (entriesOf m))
  | [], acc, _ => by simp [calls]
  | x :: xs, acc, h => by
    obtain ⟨o, ho, rfl⟩ := h x (by simp)
    have e : m[o]? = some m[o] := List.getElem?_eq_getElem ho
    have : collect indexEntries ((m, ()), acc) (.ref o) = .ok ((m, ()), acc ++ entriesOf m (.ref o)) := by
      simp only [collect, indexEntries, e, entriesOf]
    simp only [calls, this]
    rw [calls_index m xs _ (fun y hy => h y (by simp [hy]))]
    simp

theorem fillIndex_get : ∀ (l : List ((String × String) × Nat)) (idx : Dict (String × String) Nat) (u : String × String),
    (∀ o, Dict.get? (fillIndex l idx) u = some o → (u, o) ∈ l ∨ Dict.get? idx u = some o) ∧
    (Dict.get? (fillIndex l idx) u = none → (∀ o, (u, o) ∉ l) ∧ Dict.get? idx u = none)
  | [], idx, u => by simp [fillIndex]
  | (k, q) :: l, idx, u => by
    simp only [fillIndex]
    obtain ⟨h1, h2⟩ := fillIndex_get l (Dict.set idx k q) u
    refine ⟨fun o ho => ?_, fun ho => ?_⟩
    · rcases h1 o ho with h | h
      · exact .inl (by simp [h])
      · rw [Dict.get?_set] at h
        split at h
        · rename_i e
          cases h
          exact .inl (by simp [e])
        · exact .inr h
    · obtain ⟨h3, h4⟩ := h2 ho
      rw [Dict.get?_set] at h4
      split at h4
      · cases h4
      · rename_i e
        refine ⟨fun o h => ?_, h4⟩
        rcases List.mem_cons.1 h with h | h
        · cases h; exact e rfl
        · exact h3 o h

/-- `index` gives for an id an entity of the collection that carries it, if there is one, and nothing otherwise. -/
def Indexes (m : Mem) (coll : V) (index : Dict (String × String) Nat) : Prop := ∀ s i,
  (∀ o, Dict.get? index (s, i) = some o → InCollection m coll o ∧ HasId m o (s, i)) ∧
  (Dict.get? index (s, i) = none → ∀ o, InCollection m coll o → ¬ HasId m o (s, i))

/-- C35: `make_index` of a collection returns such an index, however the entities refer to each other.

Missing: tuples that contain lists or dictionaries, see `C37_tuple_with_list_counterexample`. -/
theorem C35_index_partial (m : Mem) (coll : V) (flat : NoListInTuple m true coll) :
    ∃ n index, (∀ n' ≥ n, makeIndex n' m coll = some (.ok index)) ∧ Indexes m coll index := by
  obtain ⟨n, order, h1, h2, h3⟩ := C37_collects_all_once_partial (τ := Unit) m () coll true indexEntries
    (by
      intro s x s' r h
      cases x <;> simp only [indexEntries, reduceCtorEq] at h
      split at h
      · cases h
      · cases h; exact rfl) flat
  refine ⟨n, fillIndex (order.flatMap (entriesOf m)) [], fun n' hn => ?_, fun s i => ?_⟩
  · simp only [makeIndex, h3 n' hn]
    rw [calls_index m order [] (fun x hx => ((h2 x).1 hx).1)]
    rfl
  · have hmem : ∀ o, ((s, i), o) ∈ order.flatMap (entriesOf m) ↔ InCollection m coll o ∧ HasId m o (s, i) := by
      intro o
      rw [List.mem_flatMap]
      constructor
      · rintro ⟨x, hx, he⟩
        obtain ⟨⟨p, hp, rfl⟩, hr⟩ := (h2 x).1 hx
        simp only [entriesOf, List.getElem?_eq_getElem hp] at he
        obtain ⟨u, hu, e⟩ := List.mem_map.1 he
        cases e
        exact ⟨⟨hp, hr⟩, _, List.getElem?_eq_getElem hp, hu⟩
      · rintro ⟨⟨hp, hr⟩, x, hx, hu⟩
        refine ⟨.ref o, (h2 _).2 ⟨⟨o, hp, rfl⟩, hr⟩, ?_⟩
        simp only [entriesOf, hx]
        exact List.mem_map.2 ⟨_, hu, rfl⟩
    obtain ⟨g1, g2⟩ := fillIndex_get (order.flatMap (entriesOf m)) [] (s, i)
    refine ⟨fun o ho => ?_, fun ho o hc hcar => (g2 ho).1 o ((hmem o).2 ⟨hc, hcar⟩)⟩
    rcases g1 o ho with h | h
    · exact (hmem o).1 h
    · simp [Dict.get?_nil] at h

/-! ## Substitution with the index -/

/-- `w` is what the link `s`, `i` stands for: a copy of an entity of the collection that carries the id or, if there is none, the same link -/
def Found (m : Mem) (coll : V) (ψ : Nat → Nat) (s i : String) (w : V) : Prop :=
  (∃ o, InCollection m coll o ∧ HasId m o (s, i) ∧ CopyOf ψ o w) ∨ ((∀ o, InCollection m coll o → ¬ HasId m o (s, i)) ∧ w = .link s i)

theorem StandsFor.found {m : Mem} {coll : V} {index : Dict (String × String) Nat} (h : Indexes m coll index) {ψ : Nat → Nat} {s i : String} {w : V}
    (hs : StandsFor index ψ s i w) : Found m coll ψ s i w := by
  unfold StandsFor at hs
  split at hs
  · rename_i o ho
    obtain ⟨h1, h2⟩ := (h s i).1 o ho
    exact .inl ⟨o, h1, h2, hs⟩
  · rename_i ho
    exact .inr ⟨(h s i).2 ho, hs⟩

/-- C35: with the index of a collection, `substitute_objects(v, index)` is `v` with copies for the entities, in which every link whose id an entity of the
collection carries has been replaced by a copy of such an entity; other links and all other values are kept. The same holds in the copies: they have
the class, the ids and the attributes of the original. Existing entities are not touched.

Missing: `inplace=True` (C60); collections in which a link leads back to the entity that contains it (`Resolution.acyclic`, see `C35_cycle_counterexample`);
values with tuples (see `C35_pairs_counterexample`). The code makes copies of the entities instead of putting the entities themselves in place, see
`C35_copies_counterexample`. -/
theorem C35_collection_partial {env : Env} {coll : V} {m : Mem} (flat : NoListInTuple m true coll) : ∃ n index, (∀ n' ≥ n, makeIndex n' m coll = some (.ok index)) ∧
    ∀ (M : Mem) (v v' : V), Resolution env index m M v v' → ∀ k, M.length < k → ∃ w m' ψ, substituteObjects env index k m v = .ok (w, m') ∧
      (∀ p, p < m.length → m'[p]? = m[p]?) ∧ alike (CopyOf ψ) (Found m coll ψ) v w ∧ (∀ p, V.ref p ∈ w.subs → m.length ≤ p ∧ p < m'.length) ∧
      ∀ p z, m.length ≤ p → m'[p]? = some z → ∃ x, m[ψ p]? = some x ∧ z.cls = x.cls ∧ (∀ u, u ∈ z.uids ↔ u ∈ x.uids) ∧
        (asDict m' z).map Prod.fst = (asDict m x).map Prod.fst ∧
        alikes (CopyOf ψ) (Found m coll ψ) ((asDict m x).map Prod.snd) ((asDict m' z).map Prod.snd) := by
  obtain ⟨n, index, h1, h2⟩ := C35_index_partial m coll flat
  refine ⟨n, index, h1, fun M v v' hR k hk => ?_⟩
  obtain ⟨w, m', ψ, e, g1, g2, g3, g4⟩ := C35_resolves_partial hR k hk
  refine ⟨w, m', ψ, e, g1, alike_mono v w (fun o w _ h => h) (fun s i w _ h => h.found h2) g3, g4, fun p z hp hz => ?_⟩
  obtain ⟨x, hx, a, b, c, d, _⟩ := g2 p z hp hz
  exact ⟨x, hx, a, b, c, alikes_mono _ _ (fun _ _ _ h => h) (fun _ _ _ _ h => StandsFor.found h2 h) d⟩

/-! ## When nothing in the entities is resolved -/

section
variable {index : Dict (String × String) Nat}
/-- a value without links that the index knows is its own resolution -/
theorem Res.refl {v : V} (hw : Json.wf v) (ht : Json.noTuple v) (h : ∀ s i, V.link s i ∈ v.subs → Dict.get? index (s, i) = none) : Res index v v := by
  have := alike_nf (f := .ref) (g := .link) v v hw ht hw ht (fun _ _ => trivial) (fun _ _ _ => trivial) (by rw [nf_tr v hw])
  refine alike_mono v v (fun o w _ e => e) (fun s i w hs e => ?_) this
  unfold meaning
  rw [h s i hs]
  exact e

theorem Ress.refl : ∀ {l : List V}, (∀ v ∈ l, Json.wf v ∧ Json.noTuple v ∧ ∀ s i, V.link s i ∈ v.subs → Dict.get? index (s, i) = none) → Ress index l l
  | [], _ => by simp [Ress, alikes]
  | v :: vs, h => by
    simp only [Ress, alikes]
    obtain ⟨a, b, c⟩ := h v (by simp)
    exact ⟨v, vs, rfl, Res.refl a b c, Ress.refl (fun w hw => h w (by simp [hw]))⟩

/-- every value has a resolution -/
theorem Res.tr {v : V} (hw : Json.wf v) (ht : Json.noTuple v) : Res index v (tr .ref (meaning index) v) := by
  have h1 : ∀ s i, Json.wf (meaning index s i) ∧ Json.noTuple (meaning index s i) := by
    intro s i
    unfold meaning
    split <;> simp [Json.wf, Json.noTuple]
  exact alike_nf v _ hw ht (wf_tr _ _ v hw (fun _ _ => by simp [Json.wf]) (fun s i _ => (h1 s i).1))
    (noTuple_tr _ _ v hw (fun _ _ => by simp [Json.noTuple]) (fun s i _ => (h1 s i).2)) (fun _ _ => trivial) (fun s i _ => pointerLike_meaning index s i) rfl
end

/-- The condition of C35 if the entities hold no links that the index knows. -/
theorem Resolution.plain {env : Env} {index : Dict (String × String) Nat} {m : Mem} {v v' : V} (hw : Json.wf v) (ht : Json.noTuple v) (hr : Res index v v')
    (hc : Copyable env m v') (ha : ∀ o, Nested m v' o → ¬ Inside m o o)
    (hl : ∀ o x, m[o]? = some x → Nested m v' o → ∀ e ∈ asDict m x, ∀ s i, V.link s i ∈ e.2.subs → Dict.get? index (s, i) = none) :
    Resolution env index m m v v' := by
  refine ⟨hc.typed, hw, ht, hr, hc, ha, fun o y hy hn => ⟨y, hy, rfl, rfl, Ress.refl ?_, hc.plain o y hy hn⟩⟩
  intro u hu
  obtain ⟨e, he, rfl⟩ := List.mem_map.1 hu
  obtain ⟨a, b⟩ := hc.plain o y hy hn e he
  exact ⟨a, b, hl o y hy hn e he⟩

/-! ## Examples -/

/-- `Resolution.same`, decided -/
def resolvedOk (index : Dict (String × String) Nat) (m M : Mem) : Bool := (List.range M.length).all (fun o => match m[o]?, M[o]? with
  | some x, some y => decide (y.cls = x.cls) && decide ((asDict M y).map Prod.fst = (asDict m x).map Prod.fst) &&
    decide ((asDict M y).map (fun e => nf e.2) = (asDict m x).map (fun e => nf (tr .ref (meaning index) e.2))) && (asDict M y).all (fun e => tidy e.2) &&
    (asDict m x).all (fun e => tidy e.2)
  | _, _ => false)

theorem resolvedOk_spec {index : Dict (String × String) Nat} {m M : Mem} (h : resolvedOk index m M = true) (o : Nat) (y : EObj) (hy : M[o]? = some y) :
    ∃ x, m[o]? = some x ∧ y.cls = x.cls ∧ (asDict M y).map Prod.fst = (asDict m x).map Prod.fst ∧
    Ress index ((asDict m x).map Prod.snd) ((asDict M y).map Prod.snd) ∧ ∀ e ∈ asDict m x, Json.wf e.2 ∧ Json.noTuple e.2 := by
  have := List.all_eq_true.1 h o (List.mem_range.2 (List.getElem?_eq_some_iff.1 hy).1)
  simp only [hy] at this
  split at this
  · rename_i x y' hx e
    cases e
    simp only [Bool.and_eq_true, decide_eq_true_eq, List.all_eq_true] at this
    obtain ⟨⟨⟨⟨h1, h2⟩, h3⟩, h4⟩, h5⟩ := this
    refine ⟨x, hx, h1, h2, ?_, fun e he => tidy_spec _ (h5 e he)⟩
    have hm : ∀ v ∈ (asDict m x).map Prod.snd, Json.wf v ∧ Json.noTuple v := by
      intro v hv
      obtain ⟨e, he, rfl⟩ := List.mem_map.1 hv
      exact tidy_spec _ (h5 e he)
    have hM : ∀ v ∈ (asDict M y).map Prod.snd, Json.wf v ∧ Json.noTuple v := by
      intro v hv
      obtain ⟨e, he, rfl⟩ := List.mem_map.1 hv
      exact tidy_spec _ (h4 e he)
    refine alikes_nf _ _ (by rw [wfs_iff]; exact fun v hv => (hm v hv).1) (by rw [noTuples_iff]; exact fun v hv => (hm v hv).2)
      (by rw [wfs_iff]; exact fun v hv => (hM v hv).1) (by rw [noTuples_iff]; exact fun v hv => (hM v hv).2)
      (fun _ _ => trivial) (fun s i _ => pointerLike_meaning index s i) ?_
    simpa [Function.comp_def] using h3
  · cases this

/-- a process, and an ingredient of it that is given by links -/
def givenCalls : List (ECls × List (String × V)) :=
  [(.processRun, [("name", .str "p"), idArg "p"]),
   (.materialRun, [("name", .str "m"), idArg "m"]),
   (.ingredientRun, [("process", .link "id" "p"), ("material", .link "id" "elsewhere"), idArg "i"])]

/-- the same with the link to the process resolved -/
def pointedCalls : List (ECls × List (String × V)) :=
  [(.processRun, [("name", .str "p"), idArg "p"]),
   (.materialRun, [("name", .str "m"), idArg "m"]),
   (.ingredientRun, [("process", .ref 0), ("material", .link "id" "elsewhere"), idArg "i"])]

/-- what they make -/
def givenMem : Mem := match callAll plainEnv [] givenCalls with
  | .ok m => m
  | .error _ => []
/-- what they make -/
def pointedMem : Mem := match callAll plainEnv [] pointedCalls with
  | .ok m => m
  | .error _ => []

theorem givenMem_eq : callAll plainEnv [] givenCalls = .ok givenMem ∧ givenMem.length = 3 ∧ callAll plainEnv [] pointedCalls = .ok pointedMem ∧ pointedMem.length = 3 := by
  decide +kernel

theorem givenMem_built : Built plainEnv givenMem ∧ Built plainEnv pointedMem := by
  have hd : ∀ m i, Made plainEnv m (idArg i).2 ∧ strKeys (idArg i).2 := by
    intro m i
    refine ⟨Made.dict _ _ ?_, ?_⟩
    · intro v hv; simp at hv; subst hv; exact Made.str _
    · simp [idArg, strKeys, strings]
  refine ⟨built_callAll givenCalls Built.nil ?_ givenMem_eq.1, built_callAll pointedCalls Built.nil ?_ givenMem_eq.2.2.1⟩
  · intro c hc e he m
    simp only [givenCalls, List.mem_cons, List.not_mem_nil, or_false] at hc
    rcases hc with rfl | rfl | rfl <;> simp only [List.mem_cons, List.not_mem_nil, or_false] at he
    · rcases he with rfl | rfl
      · exact ⟨Made.str _, by simp [strKeys]⟩
      · exact hd m _
    · rcases he with rfl | rfl
      · exact ⟨Made.str _, by simp [strKeys]⟩
      · exact hd m _
    · rcases he with rfl | rfl | rfl
      · exact ⟨Made.link _ _, by simp [strKeys]⟩
      · exact ⟨Made.link _ _, by simp [strKeys]⟩
      · exact hd m _
  · intro c hc e he m
    simp only [pointedCalls, List.mem_cons, List.not_mem_nil, or_false] at hc
    rcases hc with rfl | rfl | rfl <;> simp only [List.mem_cons, List.not_mem_nil, or_false] at he
    · rcases he with rfl | rfl
      · exact ⟨Made.str _, by simp [strKeys]⟩
      · exact hd m _
    · rcases he with rfl | rfl
      · exact ⟨Made.str _, by simp [strKeys]⟩
      · exact hd m _
    · rcases he with rfl | rfl | rfl
      · exact ⟨Made.ref _, by simp [strKeys]⟩
      · exact ⟨Made.link _ _, by simp [strKeys]⟩
      · exact hd m _

/-- the collection of all three, and its index -/
def threeIndex : Dict (String × String) Nat := [(("id", "p"), 0), (("id", "m"), 1), (("id", "i"), 2)]

theorem freeAll {m : Mem} (key : m.all (fun x => freeOk (asDict m x) && (asDict m x).all (fun e => insideOk e.2)) = true) (o : Nat) (x : EObj) (hx : m[o]? = some x) :
    FreePlain (asDict m x) ∧ ∀ e ∈ asDict m x, FreeInside e.2 := by
  have := List.all_eq_true.1 key x (List.mem_of_getElem? hx)
  rw [Bool.and_eq_true] at this
  exact ⟨freeOk_spec this.1, fun e he => insideOk_spec (List.all_eq_true.1 this.2 e he)⟩

/-- the hypotheses of the theorems on C35 are met: a list with a link to the ingredient, which contains a link to the process; both are resolved. A link to
something that is not in the collection is in each. -/
example : makeIndex 60 givenMem (.list [.ref 0, .ref 1, .ref 2]) = some (.ok threeIndex) ∧ NoListInTuple givenMem true (.list [.ref 0, .ref 1, .ref 2]) ∧
    Resolution plainEnv threeIndex givenMem pointedMem (.list [.link "id" "i", .ref 1, .link "id" "no"]) (.list [.ref 2, .ref 1, .link "id" "no"]) := by
  refine ⟨by decide +kernel, ?_, ?_⟩
  · refine flat_of_noTuple (fun o x hx f hf => ?_) (by decide +kernel)
    have : givenMem.all (fun x => x.fields.all (fun f => tidy f.2)) = true := by decide +kernel
    exact List.all_eq_true.1 (List.all_eq_true.1 this x (List.mem_of_getElem? hx)) f hf
  · have hc : Copyable plainEnv pointedMem (.list [.ref 2, .ref 1, .link "id" "no"]) := by
      refine copyable_built plainEnv_sane givenMem_built.2 ?_ (by decide +kernel) ?_ (by decide +kernel)
      · refine Made.list _ (fun v hv => ?_)
        simp at hv
        rcases hv with rfl | rfl | rfl
        · exact Made.ref _
        · exact Made.ref _
        · exact Made.link _ _
      · intro o ho
        simp [V.subs, subss] at ho
        rw [givenMem_eq.2.2.2]
        omega
    refine ⟨givenMem_built.1.wellTyped plainEnv_sane, by simp [Json.wf, wfs], by simp [Json.noTuple, noTuples], ?_, hc, ?_, fun o y hy _ => ?_⟩
    · simp [Res, alike, alikes, meaning, threeIndex, Dict.get?]
    · exact C57_no_cycle hc.typed (fun o x hx _ => freeAll (by decide +kernel) o x hx)
    · exact resolvedOk_spec (by decide +kernel) o y hy

/-- C35: the entities that links are replaced by are not those of the collection but copies, one for the link and one for the entity itself -/
theorem C35_copies_counterexample : ∃ m', substituteObjects plainEnv threeIndex 9 givenMem (.list [.link "id" "p", .ref 0, .link "id" "p"]) =
    .ok (.list [.ref 3, .ref 4, .ref 3], m') := by
  have : (match substituteObjects plainEnv threeIndex 9 givenMem (.list [.link "id" "p", .ref 0, .link "id" "p"]) with
    | .ok (w, _) => decide (w = .list [.ref 3, .ref 4, .ref 3])
    | .error _ => false) = true := by decide +kernel
  split at this
  · rename_i w m' hw
    exact ⟨m', by rw [hw, of_decide_eq_true this]⟩
  · cases this

/-- C35 fails for tuples: after the pair ("id", "p"), which is equal to the link, the link is replaced by the pair. -/
theorem C35_pairs_counterexample : substituteObjects plainEnv threeIndex 9 givenMem (.list [.tuple [.str "id", .str "p"], .link "id" "p"]) =
    .ok (.list [.tuple [.str "id", .str "p"], .tuple [.str "id", .str "p"]], givenMem) := by decide +kernel

/-- C35 fails for an entity that contains a link to itself: the copy contains another copy, in which the link is still there. -/
theorem C35_cycle_counterexample : ∃ (m m' : Mem) (index : Dict (String × String) Nat), makeIndex 60 m (.ref 0) = some (.ok index) ∧
    substituteObjects plainEnv index 9 m (.link "id" "x") = .ok (.ref 2, m') ∧
    ((m'[2]?).map (fun z => Dict.get? (asDict m' z) "notes")) = some (some (.ref 1)) ∧ ((m'[1]?).map (fun z => Dict.get? (asDict m' z) "notes")) = some (some (.link "id" "x")) := by
  have h : (match callAll plainEnv [] [(.processRun, [("name", .str "p"), ("notes", .link "id" "x"), idArg "x"])] with
    | .ok m => (match makeIndex 60 m (.ref 0) with
      | some (.ok index) => (match substituteObjects plainEnv index 9 m (.link "id" "x") with
        | .ok (w, m') => decide (w = .ref 2 ∧ ((m'[2]?).map (fun z => Dict.get? (asDict m' z) "notes")) = some (some (.ref 1)) ∧
            ((m'[1]?).map (fun z => Dict.get? (asDict m' z) "notes")) = some (some (.link "id" "x")))
        | .error _ => false)
      | _ => false)
    | .error _ => false) = true := by decide +kernel
  split at h
  · split at h
    · rename_i index hi
      split at h
      · rename_i w m' hw
        obtain ⟨h1, h2, h3⟩ := of_decide_eq_true h
        subst h1
        exact ⟨_, m', index, hi, hw, h2, h3⟩
      · cases h
    · cases h
  · cases h

end Verif.Substitute
