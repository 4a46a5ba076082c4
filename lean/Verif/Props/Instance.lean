import Verif.Model.Instance
import Verif.Props.BackLinks
/-!
# C48: make_instance
-/

set_option linter.unusedSimpArgs false
set_option linter.unusedVariables false

namespace Verif.Instance
open Verif.Py Verif.Value Verif.Schema Verif.Json

/-! ### Specification -/

/-- the class of an entity -/
def cls (m : Mem) (o : Nat) : Option ECls := (m[o]?).map EObj.cls

/-- the kinds of specs, and the runs made for them -/
def runOf : ECls → Option ECls
  | .measurementSpec => some .measurementRun
  | .materialSpec => some .materialRun
  | .ingredientSpec => some .ingredientRun
  | .processSpec => some .processRun
  | _ => none

/-- What a spec was made from: the process of a material, the ingredients of a process, the material of an ingredient. -/
inductive Next (m : Mem) : Nat → V → Prop where
  | process {p : Nat} {v : V} : cls m p = some .materialSpec → peek m p "_process" = some v → v ≠ .none → Next m p v
  | material {p : Nat} {v : V} : cls m p = some .ingredientSpec → peek m p "_material" = some v → v ≠ .none → Next m p v
  | ingredient {p : Nat} {l : List V} {v : V} : cls m p = some .processSpec → peek m p "_ingredients" = some (.list l) → v ∈ l → Next m p v

/-- the history of a spec -/
inductive History (m : Mem) (v : V) : V → Prop where
  | refl : History m v v
  | step {p : Nat} {w : V} : History m v (.ref p) → Next m p w → History m v w

/-- The runs `f p` for the specs `p` of a history: what `make_instance` is to make. -/
structure Mirror (m m' : Mem) (root : Nat) (f : Nat → Nat) : Prop where
  /-- what there was is as it was -/
  old : ∀ i, i < m.length → m'[i]? = m[i]?
  /-- what is new are the runs -/
  new : ∀ k, m.length ≤ k ∧ k < m'.length ↔ ∃ p, History m (.ref root) (.ref p) ∧ f p = k
  /-- one for each spec -/
  inj : ∀ p q, History m (.ref root) (.ref p) → History m (.ref root) (.ref q) → f p = f q → p = q
  /-- of the kind of the spec, pointing to the spec, with the name of the spec, and without ids -/
  run : ∀ p, History m (.ref root) (.ref p) → ∃ x y, m[p]? = some x ∧ m'[f p]? = some y ∧ runOf x.cls = some y.cls ∧ y.uids = [] ∧
    Dict.get? y.fields "_spec" = some (.ref p) ∧ (x.cls ≠ .ingredientSpec → Dict.get? y.fields "_name" = Dict.get? x.fields "_name")
  /-- connected as the specs are -/
  process : ∀ p v, History m (.ref root) (.ref p) → cls m p = some .materialSpec → peek m p "_process" = some v →
    (v = .none ∧ peek m' (f p) "_process" = some .none) ∨ ∃ q, v = .ref q ∧ peek m' (f p) "_process" = some (.ref (f q))
  material : ∀ p v, History m (.ref root) (.ref p) → cls m p = some .ingredientSpec → peek m p "_material" = some v →
    (v = .none ∧ peek m' (f p) "_material" = some .none) ∨ ∃ q, v = .ref q ∧ peek m' (f p) "_material" = some (.ref (f q))
  ingredients : ∀ p l, History m (.ref root) (.ref p) → cls m p = some .processSpec → peek m p "_ingredients" = some (.list l) →
    ∃ qs : List Nat, l = qs.map .ref ∧ peek m' (f p) "_ingredients" = some (.list (qs.map fun q => .ref (f q)))
  /-- an ingredient belongs to the run of a process in the history whose ingredient its spec is, if there is one -/
  ingredientOf : ∀ p, History m (.ref root) (.ref p) → cls m p = some .ingredientSpec →
    (∃ q l, History m (.ref root) (.ref q) ∧ cls m q = some .processSpec ∧ peek m q "_ingredients" = some (.list l) ∧ .ref p ∈ l ∧
      peek m' (f p) "_process" = some (.ref (f q))) ∨
    ((∀ q l, History m (.ref root) (.ref q) → cls m q = some .processSpec → peek m q "_ingredients" = some (.list l) → .ref p ∉ l) ∧
      peek m' (f p) "_process" = some .none)
  /-- a process has made the run of a material in the history whose process its spec is, if there is one -/
  output : ∀ p, History m (.ref root) (.ref p) → cls m p = some .processSpec →
    (∃ q, History m (.ref root) (.ref q) ∧ cls m q = some .materialSpec ∧ peek m q "_process" = some (.ref p) ∧ peek m' (f p) "_output_material" = some (.ref (f q))) ∨
    ((∀ q, History m (.ref root) (.ref q) → cls m q = some .materialSpec → peek m q "_process" ≠ some (.ref p)) ∧
      peek m' (f p) "_output_material" = some .none)

/-- What the setters of the library make sure of, for specs: names are strings, pointers point to entities of the right class or are links, and the list
of ingredients holds, each once, the ingredients that point to the process. -/
structure Specs (m : Mem) : Prop where
  name : ∀ (p : Nat) (x : EObj), m[p]? = some x → x.cls ∈ [ECls.measurementSpec, .materialSpec, .processSpec] → ∃ n, Dict.get? x.fields "_name" = some (.str n)
  process : ∀ (p : Nat) (x : EObj), m[p]? = some x → x.cls = .materialSpec → ∃ v, Dict.get? x.fields "_process" = some v ∧
    (v = .none ∨ (∃ s i, v = .link s i) ∨ ∃ q, v = .ref q ∧ cls m q = some .processSpec)
  material : ∀ (p : Nat) (x : EObj), m[p]? = some x → x.cls = .ingredientSpec → ∃ v, Dict.get? x.fields "_material" = some v ∧
    (v = .none ∨ (∃ s i, v = .link s i) ∨ ∃ q, v = .ref q ∧ cls m q = some .materialSpec)
  ingredients : ∀ (p : Nat) (x : EObj), m[p]? = some x → x.cls = .processSpec → ∃ l, Dict.get? x.fields "_ingredients" = some (.list l) ∧ l.Nodup ∧
    ∀ v ∈ l, ∃ q, v = .ref q ∧ cls m q = some .ingredientSpec ∧ peek m q "_process" = some (.ref p)

/-! ### Memory -/

theorem get?_map_same (fs : List (String × V)) (a : String) (f : V → V) :
    Dict.get? (fs.map (fun g => if g.1 = a then (g.1, f g.2) else g)) a = (Dict.get? fs a).map f := by
  induction fs with
  | nil => rfl
  | cons g fs ih =>
    obtain ⟨n, v⟩ := g
    simp only [List.map_cons]
    by_cases e : n = a
    · subst e
      rw [if_pos rfl]
      simp [Dict.get?]
    · simp only [if_neg e, Dict.get?]
      exact ih

theorem peek_set (m : Mem) (o : Nat) (a : String) (f : V → V) (p : Nat) (b : String) :
    peek (setField m o a f) p b = if p = o ∧ b = a then (peek m p b).map f else peek m p b := by
  unfold peek
  rw [setField_at]
  cases hx : m[p]? with
  | none => simp
  | some x =>
    simp only [Option.map_some]
    by_cases e : p = o
    · rw [if_pos e]
      by_cases e' : b = a
      · subst e'
        rw [if_pos ⟨e, rfl⟩]
        exact get?_map_same _ _ _
      · rw [if_neg (fun h => e' h.2)]
        exact get?_map_other _ a f b e'
    · rw [if_neg e, if_neg (fun h => e h.1)]

theorem cls_set (m : Mem) (o : Nat) (a : String) (f : V → V) (p : Nat) : cls (setField m o a f) p = cls m p := by
  unfold cls
  rw [setField_at]
  cases m[p]? with
  | none => rfl
  | some x => simp only [Option.map_some]; split <;> rfl

theorem isCls_iff {m : Mem} {c : ECls} {p : Nat} : isCls m [c] (.ref p) = true ↔ cls m p = some c := by
  cases h : m[p]? <;> simp [isCls, cls, h]

theorem set_before {m : Mem} {o : Nat} (a : String) (f : V → V) {i : Nat} (h : i ≠ o) : (setField m o a f)[i]? = m[i]? := by
  rw [setField_at]
  cases m[i]? with
  | none => rfl
  | some x => simp [h]

/-! ### New runs -/

/-- the attributes of runs that `make_instance` sets afterwards -/
def linkAttrs : ECls → List String
  | .materialRun => ["_process"]
  | .ingredientRun => ["_process", "_material"]
  | .processRun => ["_ingredients", "_output_material"]
  | _ => []

/-- what the constructor of a run gets -/
def kwargsOf (o : Nat) (x : EObj) : List (String × V) :=
  if x.cls = .ingredientSpec then [("spec", .ref o)] else [("name", getD x "_name"), ("spec", .ref o)]

/-- a new run -/
def bareFields (o : Nat) (x : EObj) : List (String × V) := match x.cls with
  | .measurementSpec => [("_tags", .list []), ("notes", .none), ("_name", getD x "_name"), ("_file_links", .list []), ("_spec", .ref o), ("_properties", .list []),
      ("_conditions", .list []), ("_parameters", .list []), ("_source", .none), ("_material", .none)]
  | .materialSpec => [("_tags", .list []), ("notes", .none), ("_name", getD x "_name"), ("_file_links", .list []), ("_spec", .ref o), ("_process", .none),
      ("_sample_type", .str "unknown"), ("_measurements", .list [])]
  | .ingredientSpec => [("_tags", .list []), ("notes", .none), ("_file_links", .list []), ("_spec", .ref o), ("_mass_fraction", .none), ("_volume_fraction", .none),
      ("_number_fraction", .none), ("_absolute_quantity", .none), ("_material", .none), ("_process", .none), ("_name", .none), ("_labels", .none)]
  | .processSpec => [("_tags", .list []), ("notes", .none), ("_name", getD x "_name"), ("_file_links", .list []), ("_spec", .ref o), ("_conditions", .list []),
      ("_parameters", .list []), ("_source", .none), ("_ingredients", .list []), ("_output_material", .none)]
  | _ => []

theorem new_run {env : Env} (hs : Sane env) {m mem : Mem} (hm : Specs m) {o : Nat} {x : EObj} (hx : m[o]? = some x) (hx' : mem[o]? = some x) {c : ECls} (hc : runOf x.cls = some c) :
    constructE env mem c (kwargsOf o x) = .ok (mem.length, mem ++ [⟨c, [], bareFields o x⟩]) := by
  have hname := hm.name o x hx
  have hun : convEnum env sampleTypes (.str "unknown") = .ok (.str "unknown") := by
    rw [convEnum, hs.text "unknown" (by decide)]
    rfl
  have hi : ∀ d, x.cls = d → isCls mem [d] (.ref o) = true := by intro d hd; rw [isCls_iff]; simp [cls, hx', hd]
  have key : newEntity env mem c (kwargsOf o x) = .ok ⟨c, [], bareFields o x⟩ := by
    cases hd : x.cls <;> rw [hd] at hc <;> simp [runOf] at hc <;> subst hc <;> have hi := hi _ hd
    case ingredientSpec =>
      simp only [newEntity, kwargsOf, hd, bareFields, if_true]
      simp [eargs, objectArgs, quantityArgs, pointer, bindArgs, given, EArg.arg, Dict.get?, setAll, conv, convList, members, convOptObj, convTarget, hi, convUids, ownFields]
    all_goals
      obtain ⟨n, hn⟩ := hname (by simp [hd])
      simp only [newEntity, kwargsOf, hd, bareFields]
      simp [eargs, objectArgs, quantityArgs, conditionsArg, parametersArg, pointer, bindArgs, given, EArg.arg, Dict.get?, setAll, conv, convList, members, convOptObj,
        convTarget, hi, convUids, ownFields, getD, hn, convStr, hun]
  unfold constructE
  rw [key]
  have hb : linkBack (mem ++ [⟨c, [], bareFields o x⟩]) mem.length ⟨c, [], bareFields o x⟩ = mem ++ [⟨c, [], bareFields o x⟩] := by
    cases hd : x.cls <;> rw [hd] at hc <;> simp [runOf] at hc <;> subst hc <;> simp [linkBack, backRef, bareFields, hd, Dict.get?]
  simp only [hb]

/-! ### The invariant -/

/-- the attribute of a run (and of its spec) that is set when the run is made -/
def ownAttr : ECls → Option String
  | .materialSpec => some "_process"
  | .ingredientSpec => some "_material"
  | .processSpec => some "_ingredients"
  | _ => none

/-- the run for a spec -/
def img1 (seen : Dict Nat Nat) : V → V
  | .ref p => .ref ((Dict.get? seen p).getD 0)
  | v => v

/-- the same for lists -/
def img (seen : Dict Nat Nat) : V → V
  | .list l => .list (l.map (img1 seen))
  | v => img1 seen v

/-- a spec that was seen -/
def Known1 (seen : Dict Nat Nat) (v : V) : Prop := ∃ p r, v = .ref p ∧ Dict.get? seen p = some r

/-- nothing, a spec that was seen, or a list of these -/
def Known (seen : Dict Nat Nat) (v : V) : Prop := v = .none ∨ Known1 seen v ∨ ∃ l, v = .list l ∧ ∀ w ∈ l, Known1 seen w

/-- a run as its constructor made it, but for the links -/
def Run (m mem : Mem) (p r : Nat) : Prop := ∃ x y, m[p]? = some x ∧ mem[r]? = some y ∧ runOf x.cls = some y.cls ∧ y.uids = [] ∧
  (∀ a, a ∉ linkAttrs y.cls → Dict.get? y.fields a = Dict.get? (bareFields p x) a) ∧ ∀ a ∈ linkAttrs y.cls, ∃ v, Dict.get? y.fields a = some v

/-- what holds while `make_instance` runs -/
structure Inv (m : Mem) (s : St) : Prop where
  len : m.length ≤ s.mem.length
  old : ∀ i, i < m.length → s.mem[i]? = m[i]?
  key : ∀ p r, Dict.get? s.seen p = some r → p < m.length ∧ m.length ≤ r ∧ r < s.mem.length
  onto : ∀ r, m.length ≤ r → r < s.mem.length → ∃ p, Dict.get? s.seen p = some r
  inj : ∀ p q r, Dict.get? s.seen p = some r → Dict.get? s.seen q = some r → p = q
  run : ∀ p r, Dict.get? s.seen p = some r → Run m s.mem p r
  process : ∀ q r v, Dict.get? s.seen q = some r → cls m q = some .materialSpec → peek s.mem r "_process" = some v →
    v = .none ∨ ∃ p t, v = .ref t ∧ peek m q "_process" = some (.ref p) ∧ Dict.get? s.seen p = some t ∧ peek s.mem t "_output_material" ≠ some .none
  member : ∀ x r v, Dict.get? s.seen x = some r → cls m x = some .ingredientSpec → peek s.mem r "_process" = some v →
    v = .none ∨ ∃ p t l, v = .ref t ∧ Dict.get? s.seen p = some t ∧ cls m p = some .processSpec ∧ peek s.mem t "_ingredients" = some (.list l) ∧ .ref r ∈ l
  ingredients : ∀ p r l, Dict.get? s.seen p = some r → cls m p = some .processSpec → peek m p "_ingredients" = some (.list l) →
    ∃ pre suf, l = pre ++ suf ∧ peek s.mem r "_ingredients" = some (.list (pre.map (img1 s.seen))) ∧
      ∀ v ∈ pre, ∃ x t, v = .ref x ∧ Dict.get? s.seen x = some t ∧ peek s.mem t "_process" = some (.ref r)
  output : ∀ p r v, Dict.get? s.seen p = some r → cls m p = some .processSpec → peek s.mem r "_output_material" = some v →
    v = .none ∨ ∃ q t, v = .ref t ∧ Dict.get? s.seen q = some t ∧ cls m q = some .materialSpec ∧ peek m q "_process" = some (.ref p)

theorem Inv.start (m : Mem) : Inv m ⟨m, []⟩ := by
  refine ⟨Nat.le_refl _, fun _ _ => rfl, ?_, fun r h1 h2 => by simp at h2; omega, ?_, ?_, ?_, ?_, ?_, ?_⟩ <;> intros <;> simp_all [Dict.get?]

theorem Run.cls {m mem : Mem} {p r : Nat} (h : Run m mem p r) {c d : ECls} (hc : cls m p = some c) (hd : runOf c = some d) : Instance.cls mem r = some d := by
  obtain ⟨x, y, h1, h2, h3, _⟩ := h
  unfold Instance.cls at *
  rw [h1] at hc
  rw [h2]
  simp only [Option.map_some, Option.some.injEq] at *
  subst hc
  rw [hd] at h3
  cases h3
  rfl

/-- the run is of the class that belongs to its spec -/
theorem Run.back {m mem : Mem} {p r : Nat} (h : Run m mem p r) {d : ECls} (hd : Instance.cls mem r = some d) : ∃ c, Instance.cls m p = some c ∧ runOf c = some d := by
  obtain ⟨x, y, h1, h2, h3, _⟩ := h
  unfold Instance.cls at *
  rw [h2] at hd
  simp only [Option.map_some, Option.some.injEq] at hd
  subst hd
  exact ⟨x.cls, by simp [h1], h3⟩

theorem Run.peek {m mem : Mem} {p r : Nat} (h : Run m mem p r) {d : ECls} (hd : Instance.cls mem r = some d) {a : String} (ha : a ∈ linkAttrs d) : ∃ v, peek mem r a = some v := by
  obtain ⟨x, y, h1, h2, h3, _, _, h4⟩ := h
  unfold Instance.cls at hd
  rw [h2] at hd
  simp only [Option.map_some, Option.some.injEq] at hd
  subst hd
  obtain ⟨v, hv⟩ := h4 a ha
  exact ⟨v, by simp [Instance.peek, h2, hv]⟩

theorem Run.set {m mem : Mem} {p r : Nat} (h : Run m mem p r) {o : Nat} {a : String} (f : V → V) (ha : ∀ d, Instance.cls mem o = some d → a ∈ linkAttrs d) :
    Run m (setField mem o a f) p r := by
  obtain ⟨x, y, h1, h2, h3, h4, h5, h6⟩ := h
  by_cases e : r = o
  · subst e
    have ha := ha y.cls (by simp [Instance.cls, h2])
    refine ⟨x, { y with fields := y.fields.map (fun g => if g.1 = a then (g.1, f g.2) else g) }, h1, ?_, h3, h4, ?_, ?_⟩
    · rw [setField_at, h2]; simp
    · intro b hb
      rw [← h5 b hb]
      exact get?_map_other _ a f b (fun e => hb (e ▸ ha))
    · intro b hb
      obtain ⟨v, hv⟩ := h6 b hb
      by_cases e : b = a
      · subst e
        exact ⟨f v, by rw [get?_map_same, hv]; rfl⟩
      · exact ⟨v, by rw [get?_map_other _ a f b e]; exact hv⟩
  · exact ⟨x, y, h1, by rw [set_before a f e]; exact h2, h3, h4, h5, h6⟩

theorem Inv.lt {m : Mem} {s : St} (h : Inv m s) {p r : Nat} (hp : Dict.get? s.seen p = some r) : r < s.mem.length := (h.key p r hp).2.2

/-- `seen` grows -/
def Mono (s s' : Dict Nat Nat) : Prop := ∀ p r, Dict.get? s p = some r → Dict.get? s' p = some r

theorem Known1.mono {s s' : Dict Nat Nat} (h : Mono s s') {v : V} (hv : Known1 s v) : Known1 s' v ∧ img1 s' v = img1 s v := by
  obtain ⟨p, r, rfl, hr⟩ := hv
  refine ⟨⟨p, r, rfl, h p r hr⟩, ?_⟩
  simp [img1, hr, h p r hr]

theorem Known.mono {s s' : Dict Nat Nat} (h : Mono s s') {v : V} (hv : Known s v) : Known s' v ∧ img s' v = img s v := by
  rcases hv with rfl | hv | ⟨l, rfl, hl⟩
  · exact ⟨.inl rfl, rfl⟩
  · have := hv.mono h
    refine ⟨.inr (.inl this.1), ?_⟩
    obtain ⟨p, r, rfl, hr⟩ := hv
    exact this.2
  · refine ⟨.inr (.inr ⟨l, rfl, fun w hw => ((hl w hw).mono h).1⟩), ?_⟩
    simp only [img, V.list.injEq]
    exact List.map_congr_left fun w hw => ((hl w hw).mono h).2

theorem peek_append {mem : Mem} {y : EObj} {r : Nat} (h : r < mem.length) (a : String) : peek (mem ++ [y]) r a = peek mem r a := by
  simp [peek, List.getElem?_append_left h]

theorem peek_last (mem : Mem) (y : EObj) (a : String) : peek (mem ++ [y]) mem.length a = Dict.get? y.fields a := by
  simp [peek]

theorem mono_set {s : Dict Nat Nat} {o k : Nat} (h : Dict.get? s o = none) : Mono s (Dict.set s o k) := by
  intro p r hp
  rw [Dict.get?_set]
  split
  · rename_i e; subst e; rw [h] at hp; cases hp
  · exact hp

theorem cls_eq {m : Mem} {p : Nat} {x : EObj} (h : m[p]? = some x) {c : ECls} (hc : cls m p = some c) : x.cls = c := by
  simpa [cls, h] using hc

theorem cls_of {m : Mem} {p : Nat} {x : EObj} (h : m[p]? = some x) : cls m p = some x.cls := by
  simp [cls, h]

theorem bare_get {o : Nat} {x : EObj} : (x.cls = .materialSpec → Dict.get? (bareFields o x) "_process" = some .none) ∧
    (x.cls = .ingredientSpec → Dict.get? (bareFields o x) "_process" = some .none ∧ Dict.get? (bareFields o x) "_material" = some .none) ∧
    (x.cls = .processSpec → Dict.get? (bareFields o x) "_ingredients" = some (.list []) ∧ Dict.get? (bareFields o x) "_output_material" = some .none) := by
  refine ⟨fun h => ?_, fun h => ?_, fun h => ?_⟩ <;> simp only [bareFields, h]
  · rfl
  · exact ⟨rfl, rfl⟩
  · exact ⟨rfl, rfl⟩

theorem bare_links {o : Nat} {x : EObj} {c : ECls} (hc : runOf x.cls = some c) : ∀ a ∈ linkAttrs c, ∃ v, Dict.get? (bareFields o x) a = some v := by
  intro a ha
  cases hd : x.cls <;> rw [hd] at hc <;> simp [runOf] at hc <;> subst hc
  · simp only [linkAttrs, List.mem_cons, List.not_mem_nil, or_false] at ha
    subst ha
    exact ⟨_, bare_get.1 hd⟩
  · simp only [linkAttrs, List.mem_cons, List.not_mem_nil, or_false] at ha
    rcases ha with rfl | rfl
    · exact ⟨_, (bare_get.2.2 hd).1⟩
    · exact ⟨_, (bare_get.2.2 hd).2⟩
  · simp only [linkAttrs, List.mem_cons, List.not_mem_nil, or_false] at ha
    rcases ha with rfl | rfl
    · exact ⟨_, (bare_get.2.1 hd).1⟩
    · exact ⟨_, (bare_get.2.1 hd).2⟩
  · simp [linkAttrs] at ha

/-- a run is made -/
theorem Inv.create {m : Mem} {s : St} (h : Inv m s) {o : Nat} {x : EObj} (hx : m[o]? = some x) {c : ECls} (hc : runOf x.cls = some c) (ho : Dict.get? s.seen o = none) :
    Inv m ⟨s.mem ++ [⟨c, [], bareFields o x⟩], Dict.set s.seen o s.mem.length⟩ := by
  have mono : Mono s.seen (Dict.set s.seen o s.mem.length) := mono_set ho
  have olt : o < m.length := (List.getElem?_eq_some_iff.1 hx).1
  have lt : ∀ p r, Dict.get? s.seen p = some r → r < s.mem.length := fun p r hp => h.lt hp
  have get : ∀ p r, Dict.get? (Dict.set s.seen o s.mem.length) p = some r → (p = o ∧ r = s.mem.length) ∨ (p ≠ o ∧ Dict.get? s.seen p = some r) := by
    intro p r hp
    rw [Dict.get?_set] at hp
    split at hp
    · rename_i e; cases hp; exact .inl ⟨e.symm, rfl⟩
    · rename_i e; exact .inr ⟨fun e' => e e'.symm, hp⟩
  refine ⟨by have := h.len; simp; omega, ?_, ?_, ?_, ?_, ?_, ?_, ?_, ?_, ?_⟩
  · intro i hi
    have := h.len
    simp only
    rw [List.getElem?_append_left (by omega)]
    exact h.old i hi
  · intro p r hp
    rcases get p r hp with ⟨rfl, rfl⟩ | ⟨_, hp⟩
    · have := h.len; simp; omega
    · have := h.key p r hp; simp; omega
  · intro r h1 h2
    by_cases e : r = s.mem.length
    · exact ⟨o, by simp [Dict.get?_set, e]⟩
    · obtain ⟨p, hp⟩ := h.onto r h1 (by simp at h2; omega)
      exact ⟨p, mono p r hp⟩
  · intro p q r hp hq
    rcases get p r hp with ⟨e1, e2⟩ | ⟨_, hp'⟩ <;> rcases get q r hq with ⟨e3, e4⟩ | ⟨_, hq'⟩
    · rw [e1, e3]
    · have := lt _ _ hq'; omega
    · have := lt _ _ hp'; omega
    · exact h.inj p q r hp' hq'
  · intro p r hp
    rcases get p r hp with ⟨rfl, rfl⟩ | ⟨_, hp⟩
    · refine ⟨x, ⟨c, [], bareFields p x⟩, hx, by simp, hc, rfl, fun _ _ => rfl, bare_links hc⟩
    · obtain ⟨x', y, h1, h2, h3⟩ := h.run p r hp
      exact ⟨x', y, h1, by simp only; rw [List.getElem?_append_left (lt _ _ hp)]; exact h2, h3⟩
  · intro q r v hq hcl hv
    rcases get q r hq with ⟨rfl, rfl⟩ | ⟨_, hq⟩
    · rw [peek_last] at hv
      have := cls_eq hx hcl
      rw [bare_get.1 this] at hv
      exact .inl (Option.some.inj hv).symm
    · rw [peek_append (lt _ _ hq)] at hv
      rcases h.process q r v hq hcl hv with h' | ⟨p, t, h1, h2, h3, h4⟩
      · exact .inl h'
      · refine .inr ⟨p, t, h1, h2, mono _ _ h3, ?_⟩
        rw [peek_append (lt _ _ h3)]
        exact h4
  · intro q r v hq hcl hv
    rcases get q r hq with ⟨rfl, rfl⟩ | ⟨_, hq⟩
    · rw [peek_last] at hv
      have := cls_eq hx hcl
      rw [(bare_get.2.1 this).1] at hv
      exact .inl (Option.some.inj hv).symm
    · rw [peek_append (lt _ _ hq)] at hv
      rcases h.member q r v hq hcl hv with h' | ⟨p, t, l, h1, h2, h3, h4, h5⟩
      · exact .inl h'
      · refine .inr ⟨p, t, l, h1, mono _ _ h2, h3, ?_, h5⟩
        rw [peek_append (lt _ _ h2)]
        exact h4
  · intro q r l hq hcl hl
    rcases get q r hq with ⟨rfl, rfl⟩ | ⟨_, hq⟩
    · refine ⟨[], l, rfl, ?_, by simp⟩
      rw [peek_last]
      exact (bare_get.2.2 (cls_eq hx hcl)).1
    · obtain ⟨pre, suf, h1, h2, h3⟩ := h.ingredients q r l hq hcl hl
      refine ⟨pre, suf, h1, ?_, ?_⟩
      · rw [peek_append (lt _ _ hq), h2]
        simp only [Option.some.injEq, V.list.injEq]
        refine List.map_congr_left fun v hv => ?_
        obtain ⟨x', t, e, h4, _⟩ := h3 v hv
        exact ((Known1.mono mono ⟨x', t, e, h4⟩).2).symm
      · intro v hv
        obtain ⟨x', t, e, h4, h5⟩ := h3 v hv
        exact ⟨x', t, e, mono _ _ h4, by rw [peek_append (lt _ _ h4)]; exact h5⟩
  · intro q r v hq hcl hv
    rcases get q r hq with ⟨rfl, rfl⟩ | ⟨_, hq⟩
    · rw [peek_last] at hv
      have := cls_eq hx hcl
      rw [(bare_get.2.2 this).2] at hv
      exact .inl (Option.some.inj hv).symm
    · rw [peek_append (lt _ _ hq)] at hv
      rcases h.output q r v hq hcl hv with h' | ⟨p, t, h1, h2, h3⟩
      · exact .inl h'
      · exact .inr ⟨p, t, h1, mono _ _ h2, h3⟩

theorem ingredient_cls {m : Mem} (hm : Specs m) {p x : Nat} {l : List V} {v : V} (hc : cls m p = some .processSpec) (hl : peek m p "_ingredients" = some (.list l))
    (hv : v ∈ l) (e : v = .ref x) : cls m x = some .ingredientSpec := by
  unfold peek at hl
  split at hl
  · rename_i y hy
    obtain ⟨l', h1, _, h2⟩ := hm.ingredients p y hy (cls_eq hy hc)
    rw [h1] at hl
    cases hl
    obtain ⟨q, e', h3, _⟩ := h2 v hv
    rw [e] at e'
    cases e'
    exact h3
  · cases hl

/-- the process of the run of a material is set -/
theorem Inv.setMaterial {m : Mem} (hm : Specs m) {s : St} (h : Inv m s) {q p r t : Nat} (hq : Dict.get? s.seen q = some r) (hcq : cls m q = some .materialSpec)
    (hp : Dict.get? s.seen p = some t) (hcp : cls m p = some .processSpec) (hl : peek m q "_process" = some (.ref p)) :
    Inv m ⟨setField (setField s.mem t "_output_material" (fun _ => .ref r)) r "_process" (fun _ => .ref t), s.seen⟩ := by
  have cr := (h.run q r hq).cls hcq rfl
  have ct := (h.run p t hp).cls hcp rfl
  have pk : ∀ o a, peek (setField (setField s.mem t "_output_material" (fun _ => .ref r)) r "_process" (fun _ => .ref t)) o a =
      if o = r ∧ a = "_process" then (peek s.mem r "_process").map (fun _ => .ref t)
      else if o = t ∧ a = "_output_material" then (peek s.mem t "_output_material").map (fun _ => .ref r) else peek s.mem o a := by
    intro o a
    rw [peek_set, peek_set]
    by_cases e : o = r ∧ a = "_process"
    · obtain ⟨rfl, rfl⟩ := e
      simp
    · rw [if_neg e, if_neg e]
      by_cases e' : o = t ∧ a = "_output_material"
      · obtain ⟨rfl, rfl⟩ := e'
        simp
      · rw [if_neg e', if_neg e']
  obtain ⟨vr, hvr⟩ := (h.run q r hq).peek cr (a := "_process") (by decide)
  obtain ⟨vt, hvt⟩ := (h.run p t hp).peek ct (a := "_output_material") (by decide)
  refine ⟨by simp [setField_length]; exact h.len, ?_, ?_, ?_, h.inj, ?_, ?_, ?_, ?_, ?_⟩
  · intro i hi
    have h1 := h.key q r hq
    have h2 := h.key p t hp
    simp only
    rw [set_before _ _ (by omega), set_before _ _ (by omega)]
    exact h.old i hi
  · intro p' r' hp'
    have := h.key p' r' hp'
    simpa [setField_length] using this
  · intro r' h1 h2
    exact h.onto r' h1 (by simpa [setField_length] using h2)
  · intro p' r' hp'
    have h1 : Run m (setField s.mem t "_output_material" (fun _ => .ref r)) p' r' := by
      refine (h.run p' r' hp').set _ ?_
      intro d hd; rw [ct] at hd; cases hd; decide
    refine Run.set h1 (o := r) (a := "_process") (fun _ => .ref t) ?_
    intro d hd; rw [cls_set, cr] at hd; cases hd; decide
  · intro q' r' v hq' hc' hv
    rw [pk] at hv
    have rest : ∀ p' t', Dict.get? s.seen p' = some t' → peek s.mem t' "_output_material" ≠ some .none →
        peek (setField (setField s.mem t "_output_material" (fun _ => .ref r)) r "_process" (fun _ => .ref t)) t' "_output_material" ≠ some .none := by
      intro p' t' _ h'
      rw [pk]
      rw [if_neg (by simp)]
      split
      · rw [hvt]; simp
      · exact h'
    split at hv
    · rename_i e
      rw [hvr] at hv
      simp at hv
      subst hv
      have : q' = q := h.inj _ _ _ hq' (e.1 ▸ hq)
      subst this
      refine .inr ⟨p, t, rfl, hl, hp, ?_⟩
      rw [pk, if_neg (by simp), if_pos ⟨rfl, rfl⟩, hvt]
      simp
    · rw [if_neg (by simp)] at hv
      rcases h.process q' r' v hq' hc' hv with h' | ⟨p', t', h1, h2, h3, h4⟩
      · exact .inl h'
      · exact .inr ⟨p', t', h1, h2, h3, rest p' t' h3 h4⟩
  · intro x r' v hx hc' hv
    rw [pk] at hv
    have cx := (h.run x r' hx).cls hc' rfl
    rw [if_neg (fun e => by rw [e.1, cr] at cx; cases cx), if_neg (by simp)] at hv
    rcases h.member x r' v hx hc' hv with h' | ⟨p', t', l, h1, h2, h3, h4, h5⟩
    · exact .inl h'
    · refine .inr ⟨p', t', l, h1, h2, h3, ?_, h5⟩
      rw [pk, if_neg (by simp), if_neg (by simp)]
      exact h4
  · intro p' r' l hp' hc' hl'
    obtain ⟨pre, suf, h1, h2, h3⟩ := h.ingredients p' r' l hp' hc' hl'
    refine ⟨pre, suf, h1, ?_, ?_⟩
    · rw [pk, if_neg (by simp), if_neg (by simp)]
      exact h2
    · intro v hv
      obtain ⟨x, t', e, h4, h5⟩ := h3 v hv
      refine ⟨x, t', e, h4, ?_⟩
      rw [pk]
      have hne : t' ≠ r := by
        rintro rfl
        -- the ingredient run is not the material run
        have : x = q := h.inj _ _ _ h4 hq
        subst this
        have hv' : v ∈ l := by rw [h1]; exact List.mem_append_left _ hv
        have := ingredient_cls hm hc' hl' hv' e
        rw [hcq] at this
        cases this
      rw [if_neg (fun e => hne e.1), if_neg (by simp)]
      exact h5
  · intro p' r' v hp' hc' hv
    rw [pk, if_neg (by simp)] at hv
    split at hv
    · rename_i e
      rw [hvt] at hv
      simp at hv
      subst hv
      have : p' = p := h.inj _ _ _ hp' (e.1 ▸ hp)
      subst this
      exact .inr ⟨q, r, rfl, hq, hcq, hl⟩
    · rcases h.output p' r' v hp' hc' hv with h' | ⟨p'', t', h1, h2, h3⟩
      · exact .inl h'
      · exact .inr ⟨p'', t', h1, h2, h3⟩

/-- an attribute is set about which the invariant says nothing, or to what it was -/
theorem Inv.setOther {m : Mem} {s : St} (h : Inv m s) {q r : Nat} (hq : Dict.get? s.seen q = some r) {a : String} {f : V → V}
    (ha : ∀ d, cls s.mem r = some d → a ∈ linkAttrs d) (hf : a = "_material" ∨ (peek s.mem r a).map f = peek s.mem r a) : Inv m ⟨setField s.mem r a f, s.seen⟩ := by
  have pk : ∀ o b, b ≠ "_material" → peek (setField s.mem r a f) o b = peek s.mem o b := by
    intro o b hb
    rw [peek_set]
    split
    · rename_i e
      rcases hf with h' | h'
      · exact absurd (e.2.trans h') hb
      · rw [e.1, e.2]; exact h'
    · rfl
  refine ⟨by simp [setField_length]; exact h.len, ?_, ?_, ?_, h.inj, ?_, ?_, ?_, ?_, ?_⟩
  · intro i hi
    have h1 := h.key q r hq
    simp only
    rw [set_before _ _ (by omega)]
    exact h.old i hi
  · intro p' r' hp'
    have := h.key p' r' hp'
    simpa [setField_length] using this
  · intro r' h1 h2
    exact h.onto r' h1 (by simpa [setField_length] using h2)
  · intro p' r' hp'
    exact Run.set (h.run p' r' hp') (o := r) (a := a) f ha
  · intro q' r' v hq' hc' hv
    rw [pk _ _ (by decide)] at hv
    rcases h.process q' r' v hq' hc' hv with h' | ⟨p', t', h1, h2, h3, h4⟩
    · exact .inl h'
    · exact .inr ⟨p', t', h1, h2, h3, by rw [pk _ _ (by decide)]; exact h4⟩
  · intro x r' v hx hc' hv
    rw [pk _ _ (by decide)] at hv
    rcases h.member x r' v hx hc' hv with h' | ⟨p', t', l, h1, h2, h3, h4, h5⟩
    · exact .inl h'
    · exact .inr ⟨p', t', l, h1, h2, h3, by rw [pk _ _ (by decide)]; exact h4, h5⟩
  · intro p' r' l hp' hc' hl'
    obtain ⟨pre, suf, h1, h2, h3⟩ := h.ingredients p' r' l hp' hc' hl'
    refine ⟨pre, suf, h1, by rw [pk _ _ (by decide)]; exact h2, ?_⟩
    intro v hv
    obtain ⟨x, t', e, h4, h5⟩ := h3 v hv
    exact ⟨x, t', e, h4, by rw [pk _ _ (by decide)]; exact h5⟩
  · intro p' r' v hp' hc' hv
    rw [pk _ _ (by decide)] at hv
    exact h.output p' r' v hp' hc' hv

/-- the next ingredient of the run of a process is added -/
theorem Inv.addIngredient {m : Mem} (hm : Specs m) {s : St} (h : Inv m s) {p x r t : Nat} (hp : Dict.get? s.seen p = some r) (hcp : cls m p = some .processSpec)
    (hx : Dict.get? s.seen x = some t) (hcx : cls m x = some .ingredientSpec) {pre suf : List V} (hl : peek m p "_ingredients" = some (.list (pre ++ .ref x :: suf)))
    (hpre : peek s.mem r "_ingredients" = some (.list (pre.map (img1 s.seen)))) (hnone : peek s.mem t "_process" = some .none) :
    Inv m ⟨setField (setField s.mem t "_process" (fun _ => .ref r)) r "_ingredients" (appendTo (.ref t)), s.seen⟩ := by
  have cr := (h.run p r hp).cls hcp rfl
  have ct := (h.run x t hx).cls hcx rfl
  have pk : ∀ o a, peek (setField (setField s.mem t "_process" (fun _ => .ref r)) r "_ingredients" (appendTo (.ref t))) o a =
      if o = t ∧ a = "_process" then some (.ref r)
      else if o = r ∧ a = "_ingredients" then some (.list ((pre ++ [V.ref x]).map (img1 s.seen))) else peek s.mem o a := by
    intro o a
    rw [peek_set, peek_set]
    by_cases e : o = r ∧ a = "_ingredients"
    · obtain ⟨rfl, rfl⟩ := e
      simp [hpre, appendTo, img1, hx]
    · rw [if_neg e, if_neg e]
      by_cases e' : o = t ∧ a = "_process"
      · obtain ⟨rfl, rfl⟩ := e'
        simp [hnone]
      · rw [if_neg e', if_neg e']
  refine ⟨by simp [setField_length]; exact h.len, ?_, ?_, ?_, h.inj, ?_, ?_, ?_, ?_, ?_⟩
  · intro i hi
    have h1 := h.key x t hx
    have h2 := h.key p r hp
    simp only
    rw [set_before _ _ (by omega), set_before _ _ (by omega)]
    exact h.old i hi
  · intro p' r' hp'
    have := h.key p' r' hp'
    simpa [setField_length] using this
  · intro r' h1 h2
    exact h.onto r' h1 (by simpa [setField_length] using h2)
  · intro p' r' hp'
    have h1 : Run m (setField s.mem t "_process" (fun _ => .ref r)) p' r' := by
      refine (h.run p' r' hp').set _ ?_
      intro d hd; rw [ct] at hd; cases hd; decide
    refine Run.set h1 (o := r) (a := "_ingredients") (appendTo (.ref t)) ?_
    intro d hd; rw [cls_set, cr] at hd; cases hd; decide
  · intro q' r' v hq' hc' hv
    have cq := (h.run q' r' hq').cls hc' rfl
    rw [pk, if_neg (fun e => by rw [e.1, ct] at cq; cases cq), if_neg (by simp)] at hv
    rcases h.process q' r' v hq' hc' hv with h' | ⟨p', t', h1, h2, h3, h4⟩
    · exact .inl h'
    · refine .inr ⟨p', t', h1, h2, h3, ?_⟩
      rw [pk, if_neg (by simp), if_neg (by simp)]
      exact h4
  · intro x' r' v hx' hc' hv
    rw [pk] at hv
    split at hv
    · rename_i e
      cases hv
      refine .inr ⟨p, r, _, rfl, hp, hcp, by rw [pk, if_neg (by simp), if_pos ⟨rfl, rfl⟩], ?_⟩
      rw [e.1]
      simp [img1, hx]
    · rw [if_neg (by simp)] at hv
      rcases h.member x' r' v hx' hc' hv with h' | ⟨p', t', l, h1, h2, h3, h4, h5⟩
      · exact .inl h'
      · by_cases e : t' = r
        · subst e
          refine .inr ⟨p', t', _, h1, h2, h3, by rw [pk, if_neg (by simp), if_pos ⟨rfl, rfl⟩], ?_⟩
          rw [hpre] at h4
          cases h4
          rw [List.map_append]
          exact List.mem_append_left _ h5
        · refine .inr ⟨p', t', l, h1, h2, h3, ?_, h5⟩
          rw [pk, if_neg (by simp), if_neg (fun e' => e e'.1)]
          exact h4
  · intro p' r' l hp' hc' hl'
    by_cases e : r' = r
    · subst e
      have : p' = p := h.inj _ _ _ hp' hp
      subst this
      rw [hl] at hl'
      cases hl'
      obtain ⟨pre', suf', h1, h2, h3⟩ := h.ingredients p' r' _ hp' hc' hl
      have hpp : pre' = pre := by
        rw [hpre] at h2
        have := congrArg List.length (V.list.inj (Option.some.inj h2))
        simp only [List.length_map] at this
        exact (List.append_inj h1 this).1.symm
      subst hpp
      refine ⟨pre' ++ [.ref x], suf, by simp, ?_, ?_⟩
      · rw [pk, if_neg (by simp), if_pos ⟨rfl, rfl⟩]
      · intro v hv
        rcases List.mem_append.1 hv with hv | hv
        · obtain ⟨x', t', e, h4, h5⟩ := h3 v hv
          refine ⟨x', t', e, h4, ?_⟩
          rw [pk]
          split
          · rfl
          · rw [if_neg (by simp)]; exact h5
        · simp only [List.mem_singleton] at hv
          exact ⟨x, t, hv, hx, by rw [pk, if_pos ⟨rfl, rfl⟩]⟩
    · obtain ⟨pre', suf', h1, h2, h3⟩ := h.ingredients p' r' l hp' hc' hl'
      refine ⟨pre', suf', h1, by rw [pk, if_neg (by simp), if_neg (fun e' => e e'.1)]; exact h2, ?_⟩
      intro v hv
      obtain ⟨x', t', e2, h4, h5⟩ := h3 v hv
      refine ⟨x', t', e2, h4, ?_⟩
      have hne : t' ≠ t := by
        rintro rfl
        rw [hnone] at h5
        cases h5
      rw [pk, if_neg (fun e => hne e.1), if_neg (by simp)]
      exact h5
  · intro p' r' v hp' hc' hv
    rw [pk, if_neg (by simp), if_neg (by simp)] at hv
    exact h.output p' r' v hp' hc' hv

/-! ### What a call does -/

/-- the run of a spec is connected as its spec is -/
def Done (m : Mem) (s : St) (p r : Nat) : Prop := ∀ c a v, cls m p = some c → ownAttr c = some a → peek m p a = some v →
  peek s.mem r a = some (img s.seen v) ∧ Known s.seen v

/-- what a part of the program has done: runs were made for specs that fulfil `R`, and they are complete; the others, except `ex`, keep what they have -/
structure Post (m : Mem) (R ex : Nat → Prop) (s s' : St) : Prop where
  inv : Inv m s'
  mono : Mono s.seen s'.seen
  keep : ∀ p r c a, ¬ ex p → Dict.get? s.seen p = some r → cls m p = some c → ownAttr c = some a → peek s'.mem r a = peek s.mem r a
  done : ∀ p r, Dict.get? s.seen p = none → Dict.get? s'.seen p = some r → Done m s' p r ∧ R p

theorem Post.refl {m : Mem} {R ex : Nat → Prop} {s : St} (h : Inv m s) : Post m R ex s s :=
  ⟨h, fun _ _ h => h, fun _ _ _ _ _ _ _ _ => rfl, fun p r h1 h2 => by rw [h1] at h2; cases h2⟩

theorem Done.mono {m : Mem} {R ex : Nat → Prop} {s s' : St} (h : Post m R ex s s') {p r : Nat} (hx : ¬ ex p) (hp : Dict.get? s.seen p = some r) (hd : Done m s p r) : Done m s' p r := by
  intro c a v hc ha hv
  obtain ⟨h1, h2⟩ := hd c a v hc ha hv
  obtain ⟨h3, h4⟩ := h2.mono h.mono
  rw [h.keep p r c a hx hp hc ha, h4]
  exact ⟨h1, h3⟩

theorem Post.trans {m : Mem} {R ex : Nat → Prop} {s s1 s2 : St} (hex : ∀ p, ex p → Dict.get? s.seen p ≠ none) (h : Post m R ex s s1) (h' : Post m R ex s1 s2) : Post m R ex s s2 := by
  refine ⟨h'.inv, fun p r hp => h'.mono p r (h.mono p r hp), ?_, ?_⟩
  · intro p r c a hx hp hc ha
    rw [h'.keep p r c a hx (h.mono p r hp) hc ha, h.keep p r c a hx hp hc ha]
  · intro p r h1 h2
    cases e : Dict.get? s1.seen p with
    | none => exact h'.done p r e h2
    | some r' =>
      have := h'.mono p r' e
      rw [h2] at this
      cases this
      obtain ⟨h3, h4⟩ := h.done p r h1 e
      exact ⟨h3.mono h' (fun hx => hex p hx h1) e, h4⟩

theorem Post.weaken {m : Mem} {R R' ex ex' : Nat → Prop} {s s1 : St} (h : Post m R ex s s1) (hr : ∀ p, R p → R' p) (hx : ∀ p, ex p → ex' p) : Post m R' ex' s s1 :=
  ⟨h.inv, h.mono, fun p r c a hn => h.keep p r c a (fun h' => hn (hx p h')), fun p r h1 h2 => ⟨(h.done p r h1 h2).1, hr p (h.done p r h1 h2).2⟩⟩

/-- a change of memory -/
theorem Post.change {m : Mem} {R ex : Nat → Prop} {s : St} {mem' : Mem} (h : Inv m ⟨mem', s.seen⟩)
    (hk : ∀ p r c a, ¬ ex p → Dict.get? s.seen p = some r → cls m p = some c → ownAttr c = some a → peek mem' r a = peek s.mem r a) : Post m R ex s ⟨mem', s.seen⟩ :=
  ⟨h, fun _ _ h => h, hk, fun p r h1 h2 => by simp only at h2; rw [h1] at h2; cases h2⟩

/-- the run that was made is complete -/
theorem Post.finish {m : Mem} {R : Nat → Prop} {s s1 s2 : St} {q r : Nat} (hq : Dict.get? s.seen q = none) (h1 : ∀ p, p ≠ q → Dict.get? s1.seen p = Dict.get? s.seen p)
    (h2 : ∀ p r a, Dict.get? s.seen p = some r → peek s1.mem r a = peek s.mem r a) (hq1 : Dict.get? s1.seen q = some r) (h : Post m R (· = q) s1 s2)
    (hd : Done m s2 q r) (hR : R q) : Post m R (fun _ => False) s s2 := by
  have ne : ∀ p r, Dict.get? s.seen p = some r → p ≠ q := by rintro p r hp rfl; rw [hq] at hp; cases hp
  refine ⟨h.inv, ?_, ?_, ?_⟩
  · intro p r' hp
    exact h.mono p r' (by rw [h1 p (ne p r' hp)]; exact hp)
  · intro p r' c a _ hp hc ha
    rw [h.keep p r' c a (ne p r' hp) (by rw [h1 p (ne p r' hp)]; exact hp) hc ha, h2 p r' a hp]
  · intro p r' e1 e2
    by_cases e : p = q
    · subst e
      have := h.mono p r hq1
      rw [e2] at this
      cases this
      exact ⟨hd, hR⟩
    · exact h.done p r' (by rw [h1 p e]; exact e1) e2

theorem own_ne {c : ECls} {a : String} (h : ownAttr c = some a) : a ≠ "_output_material" ∧ (c = .ingredientSpec → a = "_material") := by
  cases c <;> simp [ownAttr] at h <;> subst h <;> decide

/-! ### Fuel -/

/-- how many were not seen -/
def unseen (m : Mem) (seen : Dict Nat Nat) : Nat := (List.range m.length).countP fun i => (Dict.get? seen i).isNone

theorem unseen_mono {m : Mem} {s s' : Dict Nat Nat} (h : Mono s s') : unseen m s' ≤ unseen m s := by
  apply List.countP_mono_left
  intro i _ hi
  cases e : Dict.get? s i with
  | none => rfl
  | some r => rw [h i r e] at hi; cases hi

theorem countP_lt {l : List Nat} {P Q : Nat → Bool} (h : ∀ i ∈ l, P i = true → Q i = true) {o : Nat} (ho : o ∈ l) (h1 : P o = false) (h2 : Q o = true) :
    l.countP P < l.countP Q := by
  induction l with
  | nil => cases ho
  | cons i l ih =>
    have hle : l.countP P ≤ l.countP Q := List.countP_mono_left fun i hi => h i (by simp [hi])
    rcases List.mem_cons.1 ho with rfl | ho
    · rw [List.countP_cons, List.countP_cons, h1, h2]
      simp
      omega
    · have := ih (fun i hi => h i (by simp [hi])) ho
      rw [List.countP_cons, List.countP_cons]
      have hi := h i (by simp)
      cases hP : P i
      · simp; omega
      · rw [hi hP]; simp; omega

theorem unseen_set {m : Mem} {s : Dict Nat Nat} {o k : Nat} (ho : o < m.length) (h : Dict.get? s o = none) : unseen m (Dict.set s o k) < unseen m s := by
  apply countP_lt (o := o)
  · intro i _ hi
    cases e : Dict.get? s i with
    | none => rfl
    | some r => rw [mono_set h i r e] at hi; cases hi
  · simpa using ho
  · simp [Dict.get?_set]
  · simp [h]

/-! ### The crawler -/

/-- what a spec can refer to -/
def Target (m : Mem) (v : V) : Prop := (∃ a i, v = .link a i) ∨ ∃ p c d, v = .ref p ∧ cls m p = some c ∧ runOf c = some d

/-- how a call ends -/
def Outcome (m : Mem) (R : Nat → Prop) (ex : Nat → Prop) (v : V) (s s' : St) (good : Nat → Prop) : Except PyErr Nat → Prop
  | .ok t => Post m R ex s s' ∧ good t
  | .error e => e = .typeError ∧ m.length ≤ s'.mem.length ∧ (∀ i, i < m.length → s'.mem[i]? = m[i]?) ∧ ∃ a i, History m v (.link a i)

/-- a recursive call does what it should -/
def Ends (m : Mem) (call : Rec) (n : Nat) : Prop := ∀ v s, Inv m s → unseen m s.seen < n → Target m v →
  ∃ res s', call v s = some (res, s') ∧ Outcome m (fun p => History m v (.ref p)) (fun _ => False) v s s' (fun t => ∃ p, v = .ref p ∧ Dict.get? s'.seen p = some t) res

theorem History.trans {m : Mem} {u v w : V} (h : History m u v) (h' : History m v w) : History m u w := by
  induction h' with
  | refl => exact h
  | step _ hn ih => exact .step ih hn

theorem History.cons {m : Mem} {p : Nat} {v w : V} (h : Next m p v) (h' : History m v w) : History m (.ref p) w :=
  History.trans (.step .refl h) h'

/-- the ingredients -/
theorem crawlAll_spec {m : Mem} (hm : Specs m) (remove : Remove) {call : Rec} {n : Nat} (hc : Ends m call n) {p r : Nat} (hcp : cls m p = some .processSpec) {l : List V}
    (hl : peek m p "_ingredients" = some (.list l)) : ∀ (suf pre : List V) (s : St), l = pre ++ suf → Inv m s → unseen m s.seen < n → Dict.get? s.seen p = some r →
    peek s.mem r "_ingredients" = some (.list (pre.map (img1 s.seen))) → (∀ v ∈ pre, Known1 s.seen v) →
    ∃ res s', crawlAll remove call r suf s = some (res, s') ∧ Outcome m (fun q => History m (.ref p) (.ref q)) (· = p) (.ref p) s s' (fun t => t = r ∧
      peek s'.mem r "_ingredients" = some (.list (l.map (img1 s'.seen))) ∧ ∀ v ∈ l, Known1 s'.seen v) res := by
  obtain ⟨xp, hxp⟩ : ∃ x, m[p]? = some x := by
    unfold cls at hcp
    cases e : m[p]? with
    | none => rw [e] at hcp; cases hcp
    | some x => exact ⟨x, rfl⟩
  obtain ⟨l', hl1, hnd, hmem⟩ := hm.ingredients p xp hxp (cls_eq hxp hcp)
  have hll : l' = l := by
    simp only [peek, hxp, hl1] at hl
    cases hl
    rfl
  subst hll
  intro suf
  induction suf with
  | nil =>
    intro pre s e hi hn hp hpre hk
    simp only [List.append_nil] at e
    subst e
    exact ⟨.ok r, s, rfl, Post.refl hi, rfl, hpre, hk⟩
  | cons v suf ih =>
    intro pre s e hi hn hp hpre hk
    have hv : v ∈ l' := by rw [e]; simp
    obtain ⟨x, rfl, hcx, hxp'⟩ := hmem v hv
    have hnext : Next m p (.ref x) := .ingredient hcp hl hv
    obtain ⟨res, s1, h1, h2⟩ := hc (.ref x) s hi hn (.inr ⟨x, _, _, rfl, hcx, rfl⟩)
    simp only [crawlAll, h1]
    cases res with
    | error er =>
      obtain ⟨h3, h4, h5, a, i, h6⟩ := h2
      exact ⟨_, _, rfl, h3, h4, h5, a, i, h6.cons hnext⟩
    | ok t =>
      obtain ⟨hpost, x', e', ht⟩ := h2
      cases e'
      have hi1 := hpost.inv
      have hp1 := hpost.mono p r hp
      have ct := (hi1.run x t ht).cls hcx rfl
      have cr := (hi1.run p r hp1).cls hcp rfl
      have hpre1 : peek s1.mem r "_ingredients" = some (.list (pre.map (img1 s1.seen))) := by
        rw [hpost.keep p r _ "_ingredients" id hp hcp rfl, hpre]
        simp only [Option.some.injEq, V.list.injEq]
        exact List.map_congr_left fun w hw => (((hk w hw).mono hpost.mono).2).symm
      -- the ingredient does not belong to a process yet
      have hnone : peek s1.mem t "_process" = some .none := by
        obtain ⟨v, hv'⟩ := (hi1.run x t ht).peek ct (a := "_process") (by decide)
        rcases hi1.member x t v ht hcx hv' with rfl | ⟨p', t', l2, e1, e2, e3, e4, e5⟩
        · exact hv'
        · exfalso
          obtain ⟨yp, hyp⟩ : ∃ y, m[p']? = some y := by
            unfold cls at e3
            cases e : m[p']? with
            | none => rw [e] at e3; cases e3
            | some y => exact ⟨y, rfl⟩
          obtain ⟨l3, f1, _, f3⟩ := hm.ingredients p' yp hyp (cls_eq hyp e3)
          have f4 : peek m p' "_ingredients" = some (.list l3) := by simp [peek, hyp, f1]
          obtain ⟨pre', suf', g1, g2, g3⟩ := hi1.ingredients p' t' l3 e2 e3 f4
          rw [g2] at e4
          cases e4
          obtain ⟨w, hw, hw'⟩ := List.mem_map.1 e5
          obtain ⟨x', t2, rfl, g4, _⟩ := g3 w hw
          simp only [img1, g4, Option.getD_some, V.ref.injEq] at hw'
          subst hw'
          have : x' = x := hi1.inj _ _ _ g4 ht
          subst this
          have hx3 : V.ref x' ∈ l3 := by rw [g1]; exact List.mem_append_left _ hw
          obtain ⟨q, eq, _, f5⟩ := f3 _ hx3
          cases eq
          rw [hxp'] at f5
          cases f5
          rw [f4] at hl
          cases hl
          rw [hi1.inj p p r hp1 hp1] at *
          have : t' = r := by rw [e2] at hp1; exact Option.some.inj hp1
          subst this
          rw [hpre1] at g2
          have hlen := congrArg List.length (V.list.inj (Option.some.inj g2))
          simp only [List.length_map] at hlen
          have : pre' = pre := (List.append_inj (g1.symm.trans e) hlen.symm).1
          subst this
          rw [e, List.nodup_append] at hnd
          exact hnd.2.2 _ hw _ (by simp) rfl
      have hcls : isCls s1.mem [.ingredientRun] (.ref t) = true := isCls_iff.2 ct
      have hset : setIngredientProcess remove s1.mem t (.ref r) = (setField (setField s1.mem t "_process" (fun _ => .ref r)) r "_ingredients" (appendTo (.ref t)), .ok ()) := by
        simp only [setIngredientProcess, removeIngredient, hnone]
        rw [if_pos (isCls_iff.2 cr)]
      simp only [if_pos hcls, hset]
      rw [e] at hl
      have hi2 := Inv.addIngredient hm hi1 hp1 hcp ht hcx hl hpre1 hnone
      have hkeep : ∀ p' r' c a, p' ≠ p → Dict.get? s1.seen p' = some r' → cls m p' = some c → ownAttr c = some a →
          peek (setField (setField s1.mem t "_process" (fun _ => .ref r)) r "_ingredients" (appendTo (.ref t))) r' a = peek s1.mem r' a := by
        intro p' r' c a hne hp' hc' ha
        rw [peek_set, peek_set]
        rw [if_neg (fun h : r' = r ∧ a = "_ingredients" => hne (hi1.inj _ _ _ hp' (h.1 ▸ hp1))), if_neg]
        rintro ⟨rfl, rfl⟩
        have : p' = x := hi1.inj _ _ _ hp' ht
        subst this
        rw [hcx] at hc'
        cases hc'
        exact absurd ((own_ne ha).2 rfl) (by decide)
      have hpost2 : Post m (fun q => History m (.ref p) (.ref q)) (· = p) s ⟨setField (setField s1.mem t "_process" (fun _ => .ref r)) r "_ingredients" (appendTo (.ref t)), s1.seen⟩ := by
        refine Post.trans ?_ (hpost.weaken (fun q hq => hq.cons hnext) (fun _ h => h.elim)) (Post.change hi2 hkeep)
        rintro q rfl; rw [hp]; simp
      have hpk : peek (setField (setField s1.mem t "_process" (fun _ => .ref r)) r "_ingredients" (appendTo (.ref t))) r "_ingredients" =
          some (.list ((pre ++ [V.ref x]).map (img1 s1.seen))) := by
        rw [peek_set, if_pos ⟨rfl, rfl⟩, peek_set, if_neg (by simp), hpre1]
        simp [appendTo, img1, ht]
      obtain ⟨res, s', h3, h4⟩ := ih (pre ++ [.ref x]) ⟨setField (setField s1.mem t "_process" (fun _ => .ref r)) r "_ingredients" (appendTo (.ref t)), s1.seen⟩ (by rw [e]; simp) hi2
        (Nat.lt_of_le_of_lt (unseen_mono hpost.mono) hn) hp1 hpk (by
          intro w hw
          rcases List.mem_append.1 hw with hw | hw
          · exact ((hk w hw).mono hpost.mono).1
          · simp only [List.mem_singleton] at hw
            exact ⟨x, t, hw, ht⟩)
      refine ⟨res, s', h3, ?_⟩
      cases res with
      | error er => exact h4
      | ok t' =>
        obtain ⟨h5, h6⟩ := h4
        refine ⟨Post.trans ?_ hpost2 h5, h6⟩
        rintro q rfl; rw [hp]; simp

theorem cls_some {m : Mem} {p : Nat} {c : ECls} (h : cls m p = some c) : ∃ x, m[p]? = some x ∧ x.cls = c := by
  unfold cls at h
  cases e : m[p]? with
  | none => rw [e] at h; cases h
  | some x => rw [e] at h; exact ⟨x, rfl, Option.some.inj h⟩

/-- the crawler does what it should -/
theorem crawler_spec {env : Env} (hs : Sane env) {m : Mem} (hm : Specs m) (remove : Remove) : ∀ n, Ends m (crawler env remove n) n := by
  intro n
  induction n with
  | zero => intro v s _ h; omega
  | succ n ih =>
    intro v s hi hn hv
    rcases hv with ⟨a, i, rfl⟩ | ⟨p, c, d, rfl, hc, hd⟩
    · exact ⟨_, _, rfl, rfl, hi.len, hi.old, a, i, .refl⟩
    cases hp : Dict.get? s.seen p with
    | some r => exact ⟨.ok r, s, by simp only [crawler, hp], Post.refl hi, p, rfl, hp⟩
    | none =>
    obtain ⟨x, hx, rfl⟩ := cls_some hc
    have plt : p < m.length := (List.getElem?_eq_some_iff.1 hx).1
    have hxs : s.mem[p]? = some x := by rw [hi.old p plt]; exact hx
    have hcr := new_run (env := env) hs hm hx hxs hd
    -- after the run was made
    have hi1 := hi.create hx hd hp
    have hn1 : unseen m (Dict.set s.seen p s.mem.length) < n := by
      have := unseen_set (k := s.mem.length) plt hp
      omega
    have hp1 : Dict.get? (Dict.set s.seen p s.mem.length) p = some s.mem.length := by simp [Dict.get?_set]
    have hne1 : ∀ q, q ≠ p → Dict.get? (Dict.set s.seen p s.mem.length) q = Dict.get? s.seen q := by
      intro q hq
      rw [Dict.get?_set, if_neg (fun e => hq e.symm)]
    have hpk1 : ∀ q r a, Dict.get? s.seen q = some r → peek (s.mem ++ [⟨d, [], bareFields p x⟩]) r a = peek s.mem r a := by
      intro q r a hq
      exact peek_append (hi.lt hq) a
    have hfin : ∀ s2, Post m (fun q => History m (.ref p) (.ref q)) (· = p) ⟨s.mem ++ [⟨d, [], bareFields p x⟩], Dict.set s.seen p s.mem.length⟩ s2 → Done m s2 p s.mem.length →
        Outcome m (fun q => History m (.ref p) (.ref q)) (fun _ => False) (.ref p) s s2 (fun t => ∃ q, V.ref p = .ref q ∧ Dict.get? s2.seen q = some t) (.ok s.mem.length) := by
      intro s2 h1 h2
      exact ⟨h1.finish hp hne1 hpk1 hp1 h2 .refl, p, rfl, h1.mono p _ hp1⟩
    have hcreate : create env d (kwargsOf p x) p s = (.ok s.mem.length, ⟨s.mem ++ [⟨d, [], bareFields p x⟩], Dict.set s.seen p s.mem.length⟩) := by
      simp only [create, hcr]
    have hpeek : ∀ a, peek m p a = Dict.get? x.fields a := by intro a; simp only [peek, hx]
    have start : crawler env remove (n + 1) (.ref p) s = crawlNew env remove (crawler env remove n) p x s := by simp only [crawler, hp, hxs]
    rw [start]
    cases hcl : x.cls <;> rw [hcl] at hd <;> simp only [runOf] at hd <;> cases hd
    case succ.inr.none.measurementSpec.refl =>
      simp only [kwargsOf, hcl] at hcreate
      rw [if_neg (by decide)] at hcreate
      refine ⟨_, _, by simp only [crawlNew, hcl]; rw [hcreate], hfin _ (Post.refl hi1) ?_⟩
      intro c a v hc' ha _
      rw [hc, hcl] at hc'
      cases hc'
      cases ha
    case succ.inr.none.materialSpec.refl =>
      simp only [kwargsOf, hcl] at hcreate
      rw [if_neg (by decide)] at hcreate
      obtain ⟨v, hv, hv'⟩ := hm.process p x hx hcl
      have hgv : getD x "_process" = v := by simp only [getD, hv, Option.getD_some]
      have fresh : peek (s.mem ++ [⟨.materialRun, [], bareFields p x⟩]) s.mem.length "_process" = some .none := by rw [peek_last]; exact bare_get.1 hcl
      simp only [crawlNew, hcl, hcreate, hgv, crawlSet]
      rcases hv' with rfl | ⟨a, i, rfl⟩ | ⟨q, rfl, hq⟩
      · simp only [crawlIf, setMaterialProcess, fresh]
        refine ⟨_, _, rfl, hfin _ (Post.change ?_ ?_) ?_⟩
        · refine Inv.setOther hi1 hp1 (a := "_process") (f := fun _ => .none) ?_ (.inr (by simp only; rw [fresh]; rfl))
          intro d hd
          simp [cls] at hd
          subst hd
          decide
        · intro p' r' c a hne hp' hc' ha
          rw [peek_set, if_neg]
          rintro ⟨rfl, _⟩
          exact hne (hi1.inj _ _ _ hp' hp1)
        · intro c a v hc' ha hv''
          rw [hc, hcl] at hc'
          cases hc'
          cases ha
          rw [hpeek, hv] at hv''
          cases hv''
          refine ⟨?_, .inl rfl⟩
          simp only
          rw [peek_set, if_pos ⟨rfl, rfl⟩, fresh]
          rfl
      · obtain ⟨res, s2, h1, h2⟩ := ih (.link a i) _ hi1 hn1 (.inl ⟨a, i, rfl⟩)
        simp only [crawlIf, h1]
        cases res with
        | ok t => obtain ⟨_, _, e, _⟩ := h2; cases e
        | error e =>
          obtain ⟨h3, h4, h5, a', i', h6⟩ := h2
          exact ⟨_, _, rfl, h3, h4, h5, a', i', h6.cons (.process (by rw [hc, hcl]) (by rw [hpeek, hv]) (by simp))⟩
      · have hnext : Next m p (.ref q) := .process (by rw [hc, hcl]) (by rw [hpeek, hv]) (by simp)
        obtain ⟨res, s2, h1, h2⟩ := ih (.ref q) _ hi1 hn1 (.inr ⟨q, _, _, rfl, hq, rfl⟩)
        simp only [crawlIf, h1]
        cases res with
        | error e =>
          obtain ⟨h3, h4, h5, a', i', h6⟩ := h2
          exact ⟨_, _, rfl, h3, h4, h5, a', i', h6.cons hnext⟩
        | ok t =>
          obtain ⟨hpost, q', e, ht⟩ := h2
          cases e
          have hp2 := hpost.mono p _ hp1
          have hnone : peek s2.mem s.mem.length "_process" = some .none := by
            rw [hpost.keep p _ _ "_process" id hp1 hc (by rw [hcl]; rfl)]
            exact fresh
          have ct := (hpost.inv.run q t ht).cls hq rfl
          have hset : setMaterialProcess s2.mem s.mem.length (.ref t) =
              (setField (setField s2.mem t "_output_material" (fun _ => .ref s.mem.length)) s.mem.length "_process" (fun _ => .ref t), .ok ()) := by
            simp only [setMaterialProcess, hnone]
            rw [if_pos (isCls_iff.2 ct)]
          simp only [hset]
          have hi3 := Inv.setMaterial hm hpost.inv hp2 (by rw [hc, hcl]) ht hq (by rw [hpeek, hv])
          refine ⟨_, _, rfl, hfin _ (Post.trans ?_ (hpost.weaken (fun u hu => hu.cons hnext) (fun _ h => h.elim)) (Post.change hi3 ?_)) ?_⟩
          · rintro _ rfl; rw [hp1]; simp
          · intro p' r' c a hne hp' hc' ha
            rw [peek_set, if_neg (fun h : r' = s.mem.length ∧ a = "_process" => hne (hpost.inv.inj _ _ _ hp' (h.1 ▸ hp2))), peek_set, if_neg (fun h => (own_ne ha).1 h.2)]
          · intro c a v hc' ha hv''
            rw [hc, hcl] at hc'
            cases hc'
            cases ha
            rw [hpeek, hv] at hv''
            cases hv''
            refine ⟨?_, .inr (.inl ⟨q, t, rfl, ht⟩)⟩
            simp only
            rw [peek_set, if_pos ⟨rfl, rfl⟩, peek_set, if_neg (by simp), hnone]
            simp [img, img1, ht]
    case succ.inr.none.ingredientSpec.refl =>
      simp only [kwargsOf, hcl] at hcreate
      rw [if_pos (by decide)] at hcreate
      obtain ⟨v, hv, hv'⟩ := hm.material p x hx hcl
      have hgv : getD x "_material" = v := by simp only [getD, hv, Option.getD_some]
      have fresh : peek (s.mem ++ [⟨.ingredientRun, [], bareFields p x⟩]) s.mem.length "_material" = some .none := by rw [peek_last]; exact (bare_get.2.1 hcl).2
      simp only [crawlNew, hcl, hcreate, hgv, crawlSet]
      rcases hv' with rfl | ⟨a, i, rfl⟩ | ⟨q, rfl, hq⟩
      · simp only [crawlIf, setIngredientMaterial]
        refine ⟨_, _, rfl, hfin _ (Post.change ?_ ?_) ?_⟩
        · refine Inv.setOther hi1 hp1 (a := "_material") (f := fun _ => .none) ?_ (.inl rfl)
          intro d hd
          simp [cls] at hd
          subst hd
          decide
        · intro p' r' c a hne hp' hc' ha
          rw [peek_set, if_neg]
          rintro ⟨rfl, _⟩
          exact hne (hi1.inj _ _ _ hp' hp1)
        · intro c a v hc' ha hv''
          rw [hc, hcl] at hc'
          cases hc'
          cases ha
          rw [hpeek, hv] at hv''
          cases hv''
          refine ⟨?_, .inl rfl⟩
          simp only
          rw [peek_set, if_pos ⟨rfl, rfl⟩, fresh]
          rfl
      · obtain ⟨res, s2, h1, h2⟩ := ih (.link a i) _ hi1 hn1 (.inl ⟨a, i, rfl⟩)
        simp only [crawlIf, h1]
        cases res with
        | ok t => obtain ⟨_, _, e, _⟩ := h2; cases e
        | error e =>
          obtain ⟨h3, h4, h5, a', i', h6⟩ := h2
          exact ⟨_, _, rfl, h3, h4, h5, a', i', h6.cons (.material (by rw [hc, hcl]) (by rw [hpeek, hv]) (by simp))⟩
      · have hnext : Next m p (.ref q) := .material (by rw [hc, hcl]) (by rw [hpeek, hv]) (by simp)
        obtain ⟨res, s2, h1, h2⟩ := ih (.ref q) _ hi1 hn1 (.inr ⟨q, _, _, rfl, hq, rfl⟩)
        simp only [crawlIf, h1]
        cases res with
        | error e =>
          obtain ⟨h3, h4, h5, a', i', h6⟩ := h2
          exact ⟨_, _, rfl, h3, h4, h5, a', i', h6.cons hnext⟩
        | ok t =>
          obtain ⟨hpost, q', e, ht⟩ := h2
          cases e
          have hp2 := hpost.mono p _ hp1
          have hnone : peek s2.mem s.mem.length "_material" = some .none := by
            rw [hpost.keep p _ _ "_material" id hp1 hc (by rw [hcl]; rfl)]
            exact fresh
          have ct := (hpost.inv.run q t ht).cls hq rfl
          have cp := (hpost.inv.run p _ hp2).cls (hc.trans (by rw [hcl])) rfl
          have hset : setIngredientMaterial s2.mem s.mem.length (.ref t) = (setField s2.mem s.mem.length "_material" (fun _ => .ref t), .ok ()) := by
            simp only [setIngredientMaterial]
            rw [if_pos (isCls_iff.2 ct)]
          simp only [hset]
          have hi3 := Inv.setOther hpost.inv hp2 (a := "_material") (f := fun _ => .ref t) (by intro d hd; rw [cp] at hd; cases hd; decide) (.inl rfl)
          refine ⟨_, _, rfl, hfin _ (Post.trans ?_ (hpost.weaken (fun u hu => hu.cons hnext) (fun _ h => h.elim)) (Post.change hi3 ?_)) ?_⟩
          · rintro _ rfl; rw [hp1]; simp
          · intro p' r' c a hne hp' hc' ha
            rw [peek_set, if_neg (fun h : r' = s.mem.length ∧ a = "_material" => hne (hpost.inv.inj _ _ _ hp' (h.1 ▸ hp2)))]
          · intro c a v hc' ha hv''
            rw [hc, hcl] at hc'
            cases hc'
            cases ha
            rw [hpeek, hv] at hv''
            cases hv''
            refine ⟨?_, .inr (.inl ⟨q, t, rfl, ht⟩)⟩
            simp only
            rw [peek_set, if_pos ⟨rfl, rfl⟩, hnone]
            simp [img, img1, ht]
    case succ.inr.none.processSpec.refl =>
      simp only [kwargsOf, hcl] at hcreate
      rw [if_neg (by decide)] at hcreate
      obtain ⟨l, hv, _, _⟩ := hm.ingredients p x hx hcl
      have hgv : members (getD x "_ingredients") = l := by simp only [getD, hv, Option.getD_some, members]
      have fresh : peek (s.mem ++ [⟨.processRun, [], bareFields p x⟩]) s.mem.length "_ingredients" = some (.list []) := by rw [peek_last]; exact (bare_get.2.2 hcl).1
      simp only [crawlNew, hcl, hcreate, hgv]
      have hcp : cls m p = some .processSpec := by rw [hc, hcl]
      obtain ⟨res, s2, h1, h2⟩ := crawlAll_spec hm remove ih hcp (l := l) (by rw [hpeek, hv]) l [] _ rfl hi1 hn1 hp1 fresh (by simp)
      refine ⟨res, s2, h1, ?_⟩
      cases res with
      | error e => exact h2
      | ok t =>
        obtain ⟨hpost, rfl, h3, h4⟩ := h2
        refine hfin _ hpost ?_
        intro c a v hc' ha hv''
        rw [hcp] at hc'
        cases hc'
        cases ha
        rw [hpeek, hv] at hv''
        cases hv''
        exact ⟨h3, .inr (.inr ⟨l, rfl, h4⟩)⟩

/-- the specs of the history were seen, if all that was seen is complete -/
theorem history_seen {m : Mem} (hm : Specs m) {s : St} (hd : ∀ p r, Dict.get? s.seen p = some r → Done m s p r) {o : Nat} (ho : ∃ r, Dict.get? s.seen o = some r) {w : V}
    (h : History m (.ref o) w) : Known1 s.seen w := by
  induction h with
  | refl => obtain ⟨r, hr⟩ := ho; exact ⟨o, r, rfl, hr⟩
  | @step p w _ hn ih =>
    obtain ⟨p', r, e, hp⟩ := ih
    rw [← V.ref.inj e] at hp
    have known : ∀ v, v ≠ .none → (∀ l, v ≠ .list l) → Known s.seen v → Known1 s.seen v := by
      intro v h1 h2 h3
      rcases h3 with h3 | h3 | ⟨l, h3, _⟩
      · exact absurd h3 h1
      · exact h3
      · exact absurd h3 (h2 l)
    cases hn with
    | process hc hv hne =>
      refine known _ hne ?_ (hd p r hp _ _ _ hc rfl hv).2
      obtain ⟨x, hx, hcx⟩ := cls_some hc
      obtain ⟨v, hv1, hv2⟩ := hm.process p x hx hcx
      simp only [peek, hx, hv1] at hv
      cases hv
      rintro l rfl
      rcases hv2 with h | ⟨_, _, h⟩ | ⟨_, h, _⟩ <;> cases h
    | material hc hv hne =>
      refine known _ hne ?_ (hd p r hp _ _ _ hc rfl hv).2
      obtain ⟨x, hx, hcx⟩ := cls_some hc
      obtain ⟨v, hv1, hv2⟩ := hm.material p x hx hcx
      simp only [peek, hx, hv1] at hv
      cases hv
      rintro l rfl
      rcases hv2 with h | ⟨_, _, h⟩ | ⟨_, h, _⟩ <;> cases h
    | ingredient hc hv hmem =>
      rcases (hd p r hp _ _ _ hc rfl hv).2 with h | ⟨_, _, h, _⟩ | ⟨l, h, hl⟩
      · cases h
      · cases h
      · cases h; exact hl _ hmem

theorem mirror_of {m : Mem} (hm : Specs m) {s : St} (hi : Inv m s) (hd : ∀ p r, Dict.get? s.seen p = some r → Done m s p r ∧ History m (.ref o) (.ref p)) (ho : ∃ r, Dict.get? s.seen o = some r) :
    Mirror m s.mem o (fun p => (Dict.get? s.seen p).getD 0) := by
  have hseen : ∀ p, History m (.ref o) (.ref p) → ∃ r, Dict.get? s.seen p = some r := by
    intro p hp
    obtain ⟨q, r, e, hr⟩ := history_seen hm (fun p r h => (hd p r h).1) ho hp
    cases e
    exact ⟨r, hr⟩
  have hval : ∀ p r, Dict.get? s.seen p = some r → (Dict.get? s.seen p).getD 0 = r := by intro p r h; simp [h]
  have attr1 : ∀ p r c a v, Dict.get? s.seen p = some r → cls m p = some c → ownAttr c = some a → peek m p a = some v → (∀ l, v ≠ .list l) →
      (v = .none ∧ peek s.mem r a = some .none) ∨ ∃ q, v = .ref q ∧ peek s.mem r a = some (.ref ((Dict.get? s.seen q).getD 0)) := by
    intro p r c a v hp hc ha hv hl
    obtain ⟨h1, h2⟩ := (hd p r hp).1 c a v hc ha hv
    rcases h2 with rfl | ⟨q, t, rfl, ht⟩ | ⟨l, rfl, _⟩
    · exact .inl ⟨rfl, h1⟩
    · exact .inr ⟨q, rfl, h1⟩
    · exact absurd rfl (hl l)
  have full : ∀ p r l, Dict.get? s.seen p = some r → cls m p = some .processSpec → peek m p "_ingredients" = some (.list l) →
      peek s.mem r "_ingredients" = some (.list (l.map (img1 s.seen))) ∧ ∀ v ∈ l, ∃ x t, v = .ref x ∧ Dict.get? s.seen x = some t ∧ peek s.mem t "_process" = some (.ref r) := by
    intro p r l hp hc hl
    have h1 := ((hd p r hp).1 _ _ _ hc rfl hl).1
    obtain ⟨pre, suf, e, h2, h3⟩ := hi.ingredients p r l hp hc hl
    have : suf = [] := by
      rw [h1] at h2
      have := congrArg List.length (V.list.inj (Option.some.inj h2))
      rw [e] at this
      simp only [List.length_map, List.length_append] at this
      exact List.length_eq_zero_iff.1 (by omega)
    subst this
    rw [List.append_nil] at e
    subst e
    exact ⟨h2, h3⟩
  refine ⟨hi.old, ?_, ?_, ?_, ?_, ?_, ?_, ?_, ?_⟩
  · intro k
    constructor
    · rintro ⟨h1, h2⟩
      obtain ⟨p, hp⟩ := hi.onto k h1 h2
      exact ⟨p, (hd p k hp).2, hval p k hp⟩
    · rintro ⟨p, hp, rfl⟩
      obtain ⟨r, hr⟩ := hseen p hp
      rw [hval p r hr]
      exact (hi.key p r hr).2
  · intro p q hp hq e
    obtain ⟨r, hr⟩ := hseen p hp
    obtain ⟨t, ht⟩ := hseen q hq
    simp only [hval p r hr, hval q t ht] at e
    subst e
    exact hi.inj p q r hr ht
  · intro p hp
    obtain ⟨r, hr⟩ := hseen p hp
    obtain ⟨x, y, h1, h2, h3, h4, h5, _⟩ := hi.run p r hr
    rw [hval p r hr]
    refine ⟨x, y, h1, h2, h3, h4, ?_, ?_⟩
    · rw [h5 "_spec" (by cases y.cls <;> simp [linkAttrs])]
      cases hd : x.cls <;> rw [hd] at h3 <;> simp only [runOf] at h3 <;> first | (exfalso; cases h3; done) | (simp only [bareFields, hd]; rfl)
    · intro hne
      rw [h5 "_name" (by cases y.cls <;> simp [linkAttrs])]
      cases hd : x.cls <;> rw [hd] at h3 <;> simp only [runOf] at h3 <;> try (exfalso; cases h3; done)
      case ingredientSpec => exact absurd hd hne
      all_goals
        obtain ⟨n, hn⟩ := hm.name p x h1 (by simp [hd])
        rw [hn]
        simp only [bareFields, hd, getD, hn]
        rfl
  · intro p v hp hc hv
    obtain ⟨r, hr⟩ := hseen p hp
    rw [hval p r hr]
    refine attr1 p r _ _ v hr hc rfl hv ?_
    obtain ⟨x, hx, hcx⟩ := cls_some hc
    obtain ⟨v', hv1, hv2⟩ := hm.process p x hx hcx
    simp only [peek, hx, hv1] at hv
    cases hv
    rintro l rfl
    rcases hv2 with h | ⟨_, _, h⟩ | ⟨_, h, _⟩ <;> cases h
  · intro p v hp hc hv
    obtain ⟨r, hr⟩ := hseen p hp
    rw [hval p r hr]
    refine attr1 p r _ _ v hr hc rfl hv ?_
    obtain ⟨x, hx, hcx⟩ := cls_some hc
    obtain ⟨v', hv1, hv2⟩ := hm.material p x hx hcx
    simp only [peek, hx, hv1] at hv
    cases hv
    rintro l rfl
    rcases hv2 with h | ⟨_, _, h⟩ | ⟨_, h, _⟩ <;> cases h
  · intro p l hp hc hl
    obtain ⟨r, hr⟩ := hseen p hp
    rw [hval p r hr]
    obtain ⟨h1, h2⟩ := full p r l hr hc hl
    rw [h1]
    have : ∀ l : List V, (∀ v ∈ l, ∃ x t, v = .ref x ∧ Dict.get? s.seen x = some t ∧ peek s.mem t "_process" = some (.ref r)) →
        ∃ qs : List Nat, l = qs.map .ref ∧ l.map (img1 s.seen) = qs.map fun q => .ref ((Dict.get? s.seen q).getD 0) := by
      intro l
      induction l with
      | nil => exact fun _ => ⟨[], rfl, rfl⟩
      | cons v l ih =>
        intro h
        obtain ⟨x, t, rfl, _⟩ := h v (by simp)
        obtain ⟨qs, e1, e2⟩ := ih (fun v hv => h v (by simp [hv]))
        exact ⟨x :: qs, by simp [e1], by simp [e2, img1]⟩
    obtain ⟨qs, e1, e2⟩ := this l h2
    exact ⟨qs, e1, by rw [e2]⟩
  · intro p hp hc
    obtain ⟨r, hr⟩ := hseen p hp
    rw [hval p r hr]
    obtain ⟨v, hv⟩ := (hi.run p r hr).peek ((hi.run p r hr).cls hc rfl) (a := "_process") (by decide)
    rcases hi.member p r v hr hc hv with rfl | ⟨q, t, l', rfl, h2, h3, h4, h5⟩
    · refine .inr ⟨?_, hv⟩
      intro q l hq hcq hl hpl
      obtain ⟨t, ht⟩ := hseen q hq
      obtain ⟨_, h2⟩ := full q t l ht hcq hl
      obtain ⟨x, t', e, h3, h4⟩ := h2 _ hpl
      cases e
      rw [hr] at h3
      cases h3
      rw [hv] at h4
      cases h4
    · refine .inl ?_
      obtain ⟨x, hx, hcx⟩ := cls_some h3
      obtain ⟨l, hl1, _⟩ := hm.ingredients q x hx hcx
      have hl : peek m q "_ingredients" = some (.list l) := by simp only [peek, hx, hl1]
      refine ⟨q, l, (hd q t h2).2, h3, hl, ?_, by rw [hv, hval q t h2]⟩
      obtain ⟨f1, f2⟩ := full q t l h2 h3 hl
      rw [f1] at h4
      cases h4
      obtain ⟨w, hw, e⟩ := List.mem_map.1 h5
      obtain ⟨x', t', rfl, h6, _⟩ := f2 w hw
      simp only [img1, h6, Option.getD_some, V.ref.injEq] at e
      subst e
      rw [hi.inj _ _ _ hr h6]
      exact hw
  · intro p hp hc
    obtain ⟨r, hr⟩ := hseen p hp
    rw [hval p r hr]
    obtain ⟨v, hv⟩ := (hi.run p r hr).peek ((hi.run p r hr).cls hc rfl) (a := "_output_material") (by decide)
    rcases hi.output p r v hr hc hv with rfl | ⟨q, t, rfl, h2, h3, h4⟩
    · refine .inr ⟨?_, hv⟩
      intro q hq hcq hpq
      obtain ⟨t, ht⟩ := hseen q hq
      obtain ⟨h1, _⟩ := (hd q t ht).1 _ _ _ hcq rfl hpq
      rcases hi.process q t _ ht hcq h1 with h | ⟨p', t', _, e2, e3, e4⟩
      · cases h
      · rw [hpq] at e2
        cases e2
        rw [hr] at e3
        cases e3
        exact e4 hv
    · exact .inl ⟨q, (hd q t h2).2, h3, h4, by rw [hv, hval q t h2]⟩

/-- **C48.** For every spec in a memory as the setters keep it, whatever the shape of its history: if no link occurs in the history, `make_instance` makes one run for each
spec in it, connected as the specs are, returns the run of the spec, and changes nothing else; if a link does, it raises a TypeError and what there was is unchanged. The
recursion is never deeper than the number of entities. -/
theorem C48_make_instance (env : Env) (hs : Sane env) (remove : Remove) (m : Mem) (hm : Specs m) (o : Nat) (c : ECls) (hc : cls m o = some c) (hrun : runOf c ≠ none)
    (fuel : Nat) (hfuel : m.length < fuel) :
    ((∀ a i, ¬ History m (.ref o) (.link a i)) ∧ ∃ m' f, makeInstance env remove fuel (.ref o) m = some (.ok (f o), m') ∧ Mirror m m' o f) ∨
    ((∃ a i, History m (.ref o) (.link a i)) ∧ ∃ m', makeInstance env remove fuel (.ref o) m = some (.error .typeError, m') ∧ ∀ i, i < m.length → m'[i]? = m[i]?) := by
  obtain ⟨d, hd⟩ := Option.ne_none_iff_exists'.1 hrun
  have hun : unseen m [] < fuel := by
    have : unseen m [] ≤ (List.range m.length).length := List.countP_le_length
    rw [List.length_range] at this
    omega
  obtain ⟨res, s', h1, h2⟩ := crawler_spec hs hm remove fuel (.ref o) ⟨m, []⟩ (Inv.start m) hun (.inr ⟨o, c, d, rfl, hc, hd⟩)
  cases res with
  | error e =>
    obtain ⟨rfl, _, h3, h4⟩ := h2
    exact .inr ⟨h4, s'.mem, by simp only [makeInstance, h1]; rfl, h3⟩
  | ok r =>
    obtain ⟨hpost, p, e, hp⟩ := h2
    cases e
    have hdone : ∀ p r, Dict.get? s'.seen p = some r → Done m s' p r ∧ History m (.ref o) (.ref p) := fun p r h => hpost.done p r rfl h
    refine .inl ⟨?_, s'.mem, fun p => (Dict.get? s'.seen p).getD 0, ?_, mirror_of hm hpost.inv hdone ⟨r, hp⟩⟩
    · intro a i h
      obtain ⟨_, _, e, _⟩ := history_seen hm (fun p r h => (hdone p r h).1) ⟨r, hp⟩ h
      cases e
    · simp only [makeInstance, h1, hp, Option.getD_some, Option.map_some]

/-- **C48.** What is not a spec (an entity of another class, a link, a string, ...) is refused, and memory stays as it is. -/
theorem C48_not_a_spec (env : Env) (remove : Remove) (m : Mem) (v : V) (hv : ∀ o, v = .ref o → ∃ c, cls m o = some c ∧ runOf c = none) (fuel : Nat) (hfuel : 0 < fuel) :
    makeInstance env remove fuel v m = some (.error .typeError, m) := by
  obtain ⟨n, rfl⟩ : ∃ n, fuel = n + 1 := ⟨fuel - 1, by omega⟩
  cases v
  case ref o =>
    obtain ⟨c, hc, hr⟩ := hv o rfl
    obtain ⟨x, hx, rfl⟩ := cls_some hc
    simp only [makeInstance, crawler, hx, Dict.get?]
    unfold crawlNew
    cases hd : x.cls <;> rw [hd] at hr <;> simp [runOf] at hr <;> rfl
  all_goals rfl

open Verif.Substitute

/-! ### The hypotheses can be met: by all that constructors make -/

theorem target_of {m : Mem} {c : ECls} {v : V} (h : convTarget m [c] v = .ok v) : v = .none ∨ (∃ s i, v = .link s i) ∨ ∃ q, v = .ref q ∧ cls m q = some c := by
  unfold convTarget at h
  split at h
  · rename_i hc
    rcases hc with rfl | hc | hc
    · exact .inl rfl
    · cases v <;> simp [isLink] at hc
      exact .inr (.inl ⟨_, _, rfl⟩)
    · cases v <;> try (simp [isCls] at hc; done)
      exact .inr (.inr ⟨_, rfl, isCls_iff.1 hc⟩)
  · cases h

theorem arg_of {env : Env} {m : Mem} {x : EObj} {vals : List V} {own : List (String × V)} (hs : Shape env m x vals own) {k : String} {kd : Kind}
    (h1 : ∃ a ∈ eargs x.cls, a.attr = k) (h2 : ∀ a ∈ eargs x.cls, a.attr = k → a.kind = kd) : ∃ v, Dict.get? x.fields k = some v ∧ conv env m kd v = .ok v := by
  obtain ⟨a, v, e1, e2, e3⟩ := get?_arg hs.len own h1
  rw [← hs.fields] at e3
  refine ⟨v, e3, ?_⟩
  rw [← h2 a (List.of_mem_zip e1).1 e2]
  exact hs.conv _ e1

theorem specs_of_built {env : Env} (hsane : Sane env) {m : Mem} (h : Built env m) : Specs m := by
  have hw := h.wellTyped hsane
  have hb := Built.backInv hsane h
  refine ⟨?_, ?_, ?_, ?_⟩
  · intro p x hx hc
    obtain ⟨vals, own, hs, _⟩ := hw p x hx
    have k1 : ∀ c ∈ [ECls.measurementSpec, .materialSpec, .processSpec], ∃ a ∈ eargs c, a.attr = "_name" := by decide +kernel
    have k2 : ∀ c ∈ [ECls.measurementSpec, .materialSpec, .processSpec], ∀ a ∈ eargs c, a.attr = "_name" → a.kind = .str := by decide +kernel
    obtain ⟨v, h1, h2⟩ := arg_of hs (k1 _ hc) (k2 _ hc)
    cases v <;> simp [conv, convStr] at h2
    exact ⟨_, h1⟩
  · intro p x hx hc
    obtain ⟨vals, own, hs, _⟩ := hw p x hx
    obtain ⟨v, h1, h2⟩ := arg_of (k := "_process") (kd := .target [.processSpec]) hs (by rw [hc]; decide +kernel) (by rw [hc]; decide +kernel)
    exact ⟨v, h1, target_of h2⟩
  · intro p x hx hc
    obtain ⟨vals, own, hs, _⟩ := hw p x hx
    obtain ⟨v, h1, h2⟩ := arg_of (k := "_material") (kd := .target [.materialSpec]) hs (by rw [hc]; decide +kernel) (by rw [hc]; decide +kernel)
    exact ⟨v, h1, target_of h2⟩
  · intro p x hx hc
    obtain ⟨vals, own, hs, _⟩ := hw p x hx
    obtain ⟨name, labels, e⟩ := hb p x vals own hx hs
    refine ⟨backers m .ref (List.range m.length) "_ingredients" p, ?_, ?_, ?_⟩
    · rw [hs.fields, get?_append, get?_zip_none _ _ _ (backNames_args x.cls "_ingredients" (by decide)), e, hc]
      rfl
    · unfold backers
      rw [List.Nodup, List.pairwise_map]
      refine List.Pairwise.imp ?_ ((List.nodup_range).filter _)
      intro a b hab h
      exact hab (V.ref.inj h)
    · intro v hv
      obtain ⟨q, hq, rfl⟩ := List.mem_map.1 hv
      rw [List.mem_filter] at hq
      have hq2 := hq.2
      have hlt : q < m.length := by simpa using hq.1
      obtain ⟨y, hy⟩ : ∃ y, m[q]? = some y := ⟨_, List.getElem?_eq_getElem hlt⟩
      obtain ⟨there, h1, h2⟩ := (pointsBack_iff hy).1 hq2
      obtain ⟨vals', own', hs', _⟩ := hw q y hy
      have key : y.cls = .ingredientSpec ∧ there = "_process" := by
        cases hcy : y.cls <;> rw [hcy] at h1 <;> simp [backRef] at h1
        · exact ⟨rfl, h1.symm⟩
        · subst h1
          exfalso
          obtain ⟨v, h3, h4⟩ := arg_of (k := "_process") (kd := .target [.processRun]) hs' (by rw [hcy]; decide +kernel) (by rw [hcy]; decide +kernel)
          rw [h2] at h3
          cases h3
          rcases target_of h4 with h | ⟨_, _, h⟩ | ⟨q', h, h5⟩
          · cases h
          · cases h
          · cases h
            rw [cls_of hx, hc] at h5
            cases h5
      refine ⟨q, rfl, by rw [cls_of hy, key.1], ?_⟩
      simp only [peek, hy, ← key.2, h2]

/-- a material made by a process from two ingredients, both of the same material, which a process makes from an ingredient that is a link or, if `far` is not given, nothing -/
def specCalls (far : V) : List (ECls × List (String × V)) :=
  [(.processSpec, [("name", .str "make")]),
   (.ingredientSpec, [("name", .str "raw"), ("material", far), ("process", .ref 0)]),
   (.materialSpec, [("name", .str "base"), ("process", .ref 0)]),
   (.processSpec, [("name", .str "mix")]),
   (.ingredientSpec, [("name", .str "a"), ("material", .ref 2), ("process", .ref 3)]),
   (.ingredientSpec, [("name", .str "b"), ("material", .ref 2), ("process", .ref 3)]),
   (.materialSpec, [("name", .str "cake"), ("process", .ref 3)])]

/-- what they make -/
def specMem (far : V) : Mem := match callAll plainEnv [] (specCalls far) with
  | .ok m => m
  | .error _ => []

theorem specMem_built : Built plainEnv (specMem .none) ∧ Built plainEnv (specMem (.link "id" "far")) :=
  ⟨easy_built (calls := specCalls .none) Built.nil (by decide +kernel) (by decide +kernel),
   easy_built (calls := specCalls (.link "id" "far")) Built.nil (by decide +kernel) (by decide +kernel)⟩

/-- the hypotheses of C48 hold, and there are seven runs: that of the shared material is made once -/
example : Specs (specMem .none) ∧ cls (specMem .none) 6 = some .materialSpec ∧
    (makeInstance plainEnv (fun _ _ _ => none) 8 (.ref 6) (specMem .none)).map (fun p => (p.1, p.2.length)) = some (.ok 7, 14) ∧
    (makeInstance plainEnv (fun _ _ _ => none) 8 (.ref 6) (specMem .none)).map (fun p => [peek p.2 7 "_process", peek p.2 8 "_ingredients", peek p.2 9 "_material",
      peek p.2 13 "_material"]) = some [some (.ref 8), some (.list [.ref 9, .ref 13]), some (.ref 10), some (.ref 10)] := by
  refine ⟨specs_of_built plainEnv_sane specMem_built.1, by decide +kernel, by decide +kernel, by decide +kernel⟩

/-- the same with a link -/
example : Specs (specMem (.link "id" "far")) ∧ History (specMem (.link "id" "far")) (.ref 6) (.link "id" "far") ∧
    (makeInstance plainEnv (fun _ _ _ => none) 8 (.ref 6) (specMem (.link "id" "far"))).map Prod.fst = some (.error .typeError) := by
  refine ⟨specs_of_built plainEnv_sane specMem_built.2, ?_, by decide +kernel⟩
  refine .step (p := 1) (.step (p := 0) (.step (p := 2) (.step (p := 4) (.step (p := 3) (.step (p := 6) .refl ?_) ?_) ?_) ?_) ?_) ?_
  · exact .process (by decide +kernel) (by decide +kernel) (by simp)
  · exact .ingredient (l := [.ref 4, .ref 5]) (by decide +kernel) (by decide +kernel) (by simp)
  · exact .material (by decide +kernel) (by decide +kernel) (by simp)
  · exact .process (by decide +kernel) (by decide +kernel) (by simp)
  · exact .ingredient (l := [.ref 1]) (by decide +kernel) (by decide +kernel) (by simp)
  · exact .material (by decide +kernel) (by decide +kernel) (by simp)

end Verif.Instance
