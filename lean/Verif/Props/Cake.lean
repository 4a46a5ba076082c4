import Verif.Model.Cake
import Verif.Props.Traverse
/-!
# C78: the cake of the demo

What the runs of a cake are for every outcome of the random draws and every order of visits in which a material comes before its process; which material `_find_name` finds; and what
holds of the recipe itself.
-/

namespace Verif.Cake
open Verif.Py Verif.Traverse

/-! ### Spec -/

/-- what `random` gives: numbers in [0, 1), and an index within the list -/
def Draws.Fair (D : Draws) : Prop := ∀ k, (0 ≤ D.random k ∧ D.random k < 1) ∧ ∀ n, 0 < n → D.choice k n < n

/-- a run of the recipe -/
def Recipe.Has (r : Recipe) : Item → Prop
  | .material i => i < r.materials.length
  | .process i => i < r.materials.length
  | .ingredient j => j < r.ingredients.length

/-- the runs that a run refers to: a material to its process, a process to the material it makes and to its ingredients, an ingredient to its process and its material -/
inductive Next (r : Recipe) : Item → Item → Prop
  | process (i) : Next r (.material i) (.process i)
  | output (i) : Next r (.process i) (.material i)
  | ingredient {j a} : r.ingredients[j]? = some a → Next r (.process a.process) (.ingredient j)
  | used {j a} : r.ingredients[j]? = some a → Next r (.ingredient j) (.process a.process)
  | material {j a} : r.ingredients[j]? = some a → Next r (.ingredient j) (.material a.material)

/-- what goes into the cake -/
inductive Part (r : Recipe) : Item → Prop
  | cake : Part r (.material 0)
  | next {x y} : Part r x → Next r x y → Part r y

/-- a recipe of a cake that is not bought, in which everything goes into the cake -/
structure Whole (r : Recipe) : Prop where
  cake : ∃ a, r.materials[0]? = some a ∧ a.template ≠ "Procuring"
  numbers : ∀ a ∈ r.ingredients, a.material < r.materials.length ∧ a.process < r.materials.length
  parts : ∀ x, r.Has x → Part r x

/-- every run is visited once, and a material before the process that makes it -/
structure Walk (r : Recipe) (order : List Item) : Prop where
  once : order.Nodup
  all : ∀ x, r.Has x → x ∈ order
  before : ∀ a b i, order = a ++ .process i :: b → .material i ∈ a

/-- the notes of a run -/
def Says (spec : String) (run : Option String) : Prop :=
  (spec = "" ∧ run = none) ∨ (spec ≠ "" ∧ run = some ("The spec says \"" ++ spec ++ "\""))

/-- the id of a run is that of the spec, a dash and the key of this invocation; its tags and notes are those of the spec -/
def Annotated (key uid : String) (tags : List String) (notes : String) (x : Run) : Prop :=
  x.uid = some (uid ++ "-" ++ key) ∧ x.tags = tags ∧ Says notes x.notes

/-- the name of a material run: that of the spec, after that of a supplier if it is a raw material -/
def Named (a : Material) (name : String) : Prop :=
  ("raw material" ∉ a.tags ∧ name = a.name) ∨
  ("raw material" ∈ a.tags ∧ "produce" ∈ a.tags ∧ ∃ s ∈ ["Fresh Farm", "Sunnydale", "Greenbrook"], name = s ++ " " ++ a.name) ∨
  ("raw material" ∈ a.tags ∧ "produce" ∉ a.tags ∧ ∃ s ∈ ["Acme", "A1", "Reliable", "Big Box"], name = s ++ " " ++ a.name)

/-- a run's distribution around the quantity of the spec: in the units of the spec, of a width of a twentieth of the quantity, and with a mean from 95 % of it up to 105 % -/
def Around (x : Rat) : Option Quantity → Option Normal → Prop
  | none, none => True
  | some q, some d => d.units = q.units ∧ d.std = q.nominal / 20 ∧ d.mean = (95 + 10 * x) / 100 * q.nominal
  | _, _ => False

/-- a volume fraction is from 0.0045 up to 0.0055 more than that of the spec -/
def Shifted (x : Rat) : Option Quantity → Option Normal → Prop
  | none, none => True
  | some q, some d => d.units = q.units ∧ d.std = 5 / 1000 ∧ d.mean = q.nominal + (45 + 10 * x) / 10000
  | _, _ => False

/-- a mass fraction is anything from 5 % of the quantity below to 5 % above a value that is 95 % to 105 % of it -/
def Within (x : Rat) : Option Quantity → Option Uniform → Prop
  | none, none => True
  | some q, some d => d.units = q.units ∧ d.lower = (90 + 10 * x) / 100 * q.nominal ∧ d.upper = (100 + 10 * x) / 100 * q.nominal
  | _, _ => False

/-- the quantities of an ingredient run; one draw `x` is used for all of them -/
def Drawn (a : Ingredient) (x : Rat) (q : Quantities) : Prop :=
  Around x a.absolute q.absolute ∧ Shifted x a.volume q.volume ∧ Within x a.mass q.mass ∧ Around x a.number q.number

/-- the materials below (and with) material `i`, depth first, each as often as it is met -/
inductive Depth (r : Recipe) : List Nat → List Nat → Prop
  | nil : Depth r [] []
  | cons {i is below rest} : Depth r ((r.ingredients.filter fun a => a.process = i).map (·.material)) below → Depth r is rest → Depth r (i :: is) (i :: below ++ rest)

/-- What the runs are. The names of bought materials begin with that of a supplier; a purchase is named after the material that was bought. -/
def Made (r : Recipe) (key : String) (s : St) : Prop :=
  (∀ i a, r.materials[i]? = some a → Annotated key a.uid a.tags a.notes (s.run (.material i)) ∧ Named a (s.run (.material i)).name) ∧
  (∃ who ∈ ["gwash", "jadams", "thomasj", "jmadison", "jmonroe"], ∀ i a, r.materials[i]? = some a →
    Annotated key a.processUid a.processTags a.processNotes (s.run (.process i)) ∧
    (a.template = "Procuring" → (s.run (.process i)).name = "Procuring " ++ (s.run (.material i)).name ∧ (s.run (.process i)).source = some ("hamilton", "2015-02-17")) ∧
    (a.template ≠ "Procuring" → (s.run (.process i)).name = a.processName ∧ (s.run (.process i)).source = some (who, "2015-03-14"))) ∧
  (∀ j a, r.ingredients[j]? = some a → Annotated key a.uid a.tags a.notes (s.run (.ingredient j)) ∧ (s.run (.ingredient j)).name = a.name ∧
    ∃ t, (0 ≤ t ∧ t < 1) ∧ Drawn a t (s.run (.ingredient j)).quantities)

/-! ### Lemmas -/

theorem isInChars_iff (t s : List Char) : isInChars t s = true ↔ ∃ a b, s = a ++ t ++ b := by
  induction s with
  | nil => 
    simp only [isInChars, List.isEmpty_iff]
    constructor
    · rintro rfl; exact ⟨[], [], rfl⟩
    · rintro ⟨a, b, h⟩
      simp at h
      exact h.2.1
  | cons c cs ih =>
    simp only [isInChars, Bool.or_eq_true, List.isPrefixOf_iff_prefix, ih]
    constructor
    · rintro (⟨b, h⟩ | ⟨a, b, h⟩)
      · exact ⟨[], b, by simpa using h.symm⟩
      · exact ⟨c :: a, b, by simp [h]⟩
    · rintro ⟨a, b, h⟩
      cases a with
      | nil => exact .inl ⟨b, by simpa using h.symm⟩
      | cons d a =>
        simp only [List.cons_append, List.cons.injEq] at h
        exact .inr ⟨a, b, h.2⟩

theorem isIn_iff (t s : String) : isIn t s = true ↔ ∃ a b, s.toList = a ++ t.toList ++ b := isInChars_iff _ _

theorem randomize_material {r : Recipe} {i : Nat} {a : Material} (h : r.materials[i]? = some a) (key : String) (D : Draws) (s : St) :
    randomize r key D s (.material i) = if "raw material" ∈ a.tags then
        { s.set (.material i) { annotate key a.uid a.tags a.notes (s.run (.material i)) with
            name := choose D s.drawn (if "produce" ∈ a.tags then producers else drygoods) ++ " " ++ a.name } with drawn := s.drawn + 1 }
      else s.set (.material i) (annotate key a.uid a.tags a.notes (s.run (.material i))) := by
  simp only [randomize, h]
  rfl

theorem randomize_process {r : Recipe} {i : Nat} {a : Material} (h : r.materials[i]? = some a) (key : String) (D : Draws) (s : St) :
    randomize r key D s (.process i) = if a.template = "Procuring" then
        s.set (.process i) { annotate key a.processUid a.processTags a.processNotes (s.run (.process i)) with
          source := some ("hamilton", "2015-02-17"), name := a.template ++ " " ++ (s.run (.material i)).name }
      else s.set (.process i) { annotate key a.processUid a.processTags a.processNotes (s.run (.process i)) with source := (s.run (.process 0)).source } := by
  simp only [randomize, h]

theorem randomize_ingredient {r : Recipe} {j : Nat} {a : Ingredient} (h : r.ingredients[j]? = some a) (key : String) (D : Draws) (s : St) :
    randomize r key D s (.ingredient j) = { s.set (.ingredient j) { annotate key a.uid a.tags a.notes (s.run (.ingredient j)) with
      quantities := randomQuantities a (fuzz (D.random s.drawn)) } with drawn := s.drawn + 1 } := by
  simp only [randomize, h]

/-- visiting a run leaves the others -/
theorem randomize_other (r : Recipe) (key : String) (D : Draws) (s : St) (x y : Item) (h : y ≠ x) : (randomize r key D s x).run y = s.run y := by
  cases x with
  | material i =>
    cases h0 : r.materials[i]? with
    | none => simp only [randomize, h0]
    | some a =>
      rw [randomize_material h0]
      split <;> simp [St.set, h]
  | process i =>
    cases h0 : r.materials[i]? with
    | none => simp only [randomize, h0]
    | some a =>
      rw [randomize_process h0]
      split <;> simp [St.set, h]
  | ingredient j =>
    cases h0 : r.ingredients[j]? with
    | none => simp only [randomize, h0]
    | some a =>
      rw [randomize_ingredient h0]
      simp [St.set, h]

theorem fold_other (r : Recipe) (key : String) (D : Draws) (l : List Item) (s : St) (y : Item) (h : y ∉ l) : (l.foldl (randomize r key D) s).run y = s.run y := by
  induction l generalizing s with
  | nil => rfl
  | cons x l ih =>
    rw [List.foldl_cons, ih _ (fun hm => h (List.mem_cons_of_mem _ hm)), randomize_other]
    rintro rfl
    exact h List.mem_cons_self

/-- the run of `y` at the end is that after its visit -/
theorem fold_split (r : Recipe) (key : String) (D : Draws) (s0 : St) (l : List Item) (hl : l.Nodup) (y : Item) (h : y ∈ l) :
    ∃ a b, l = a ++ y :: b ∧ y ∉ a ∧ y ∉ b ∧
      (l.foldl (randomize r key D) s0).run y = (randomize r key D (a.foldl (randomize r key D) s0) y).run y ∧ (a.foldl (randomize r key D) s0).run y = s0.run y := by
  obtain ⟨a, b, rfl⟩ := List.append_of_mem h
  have h1 : y ∉ a := fun hm => by
    have := (List.nodup_append.1 hl).2.2 y hm y List.mem_cons_self
    exact this rfl
  have h2 : y ∉ b := (List.nodup_cons.1 (List.nodup_append.1 hl).2.1).1
  refine ⟨a, b, rfl, h1, h2, ?_, fold_other _ _ _ _ _ _ h1⟩
  rw [List.foldl_append, List.foldl_cons, fold_other _ _ _ _ _ _ h2]

theorem annotated (key uid : String) (tags : List String) (notes : String) (x : Run) (h : x.notes = none) :
    (annotate key uid tags notes x).uid = some (uid ++ "-" ++ key) ∧ (annotate key uid tags notes x).tags = tags ∧ Says notes (annotate key uid tags notes x).notes := by
  refine ⟨rfl, rfl, ?_⟩
  unfold annotate Says
  by_cases hn : notes = ""
  · simp [hn, h]
  · simp [hn]

theorem choose_mem (D : Draws) (hD : D.Fair) (k : Nat) (l : List String) (hl : 0 < l.length) : choose D k l ∈ l := by
  unfold choose
  have := (hD k).2 _ hl
  simp [List.getD, this]

/-- the source of the process of the cake stays that of the beginning -/
theorem fold_source (r : Recipe) (key : String) (D : Draws) (src : Option (String × String)) (hr : ∀ a, r.materials[0]? = some a → a.template ≠ "Procuring") (l : List Item) (s : St)
    (h : (s.run (.process 0)).source = src) : ((l.foldl (randomize r key D) s).run (.process 0)).source = src := by
  induction l generalizing s with
  | nil => exact h
  | cons x l ih =>
    rw [List.foldl_cons]
    apply ih
    by_cases hx : Item.process 0 = x
    · subst hx
      cases h0 : r.materials[0]? with
      | none => simpa only [randomize, h0] using h
      | some a =>
        rw [randomize_process h0, if_neg (hr a h0)]
        simp [St.set, h]
    · rw [randomize_other _ _ _ _ _ _ hx, h]

/-! ### The runs -/

/-- the runs after the visits in this order -/
abbrev visited (r : Recipe) (key : String) (D : Draws) (order : List Item) : St := order.foldl (randomize r key D) ⟨fromSpec r (choose D 0 operators), 1⟩

theorem made (r : Recipe) (hr : ∀ a, r.materials[0]? = some a → a.template ≠ "Procuring") (key : String) (D : Draws) (hD : D.Fair) (order : List Item) (hw : Walk r order) :
    Made r key (visited r key D order) := by
  refine ⟨?_, ⟨choose D 0 operators, choose_mem D hD 0 operators (by decide), ?_⟩, ?_⟩
  · intro i a ha
    obtain ⟨p, q, hpq, -, -, h1, h2⟩ := fold_split r key D ⟨fromSpec r (choose D 0 operators), 1⟩ order hw.once (.material i)
      (hw.all _ (show i < _ from (List.getElem?_eq_some_iff.1 ha).1))
    rw [visited, h1, randomize_material ha]
    have hA := annotated key a.uid a.tags a.notes ((p.foldl (randomize r key D) ⟨fromSpec r (choose D 0 operators), 1⟩).run (.material i)) (by rw [h2]; rfl)
    split
    · rename_i hraw
      refine ⟨by simpa [St.set, Annotated] using hA, ?_⟩
      by_cases hp : "produce" ∈ a.tags
      · exact .inr (.inl ⟨hraw, hp, _, choose_mem D hD (p.foldl (randomize r key D) ⟨fromSpec r (choose D 0 operators), 1⟩).drawn producers (by decide), by simp [St.set, hp]⟩)
      · exact .inr (.inr ⟨hraw, hp, _, choose_mem D hD (p.foldl (randomize r key D) ⟨fromSpec r (choose D 0 operators), 1⟩).drawn drygoods (by decide), by simp [St.set, hp]⟩)
    · rename_i hraw
      refine ⟨by simpa [St.set, Annotated] using hA, .inl ⟨hraw, ?_⟩⟩
      simp [St.set, annotate, h2, fromSpec, ha]
  · intro i a ha
    obtain ⟨p, q, hpq, -, -, h1, h2⟩ := fold_split r key D ⟨fromSpec r (choose D 0 operators), 1⟩ order hw.once (.process i)
      (hw.all _ (show i < _ from (List.getElem?_eq_some_iff.1 ha).1))
    have hm : (p.foldl (randomize r key D) ⟨fromSpec r (choose D 0 operators), 1⟩).run (.material i) = (visited r key D order).run (.material i) := by
      have hb := hw.before p q i hpq
      have hnd := hw.once
      rw [hpq] at hnd
      have : Item.material i ∉ Item.process i :: q := fun hmem => (List.nodup_append.1 hnd).2.2 _ hb _ hmem rfl
      unfold visited
      rw [hpq, List.foldl_append, fold_other _ _ _ _ _ _ this]
    rw [← hm]
    rw [visited, h1, randomize_process ha]
    have hA := annotated key a.processUid a.processTags a.processNotes ((p.foldl (randomize r key D) ⟨fromSpec r (choose D 0 operators), 1⟩).run (.process i)) (by rw [h2]; rfl)
    have hs := fold_source r key D (some (choose D 0 operators, "2015-03-14")) hr p ⟨fromSpec r (choose D 0 operators), 1⟩ rfl
    split
    · rename_i hpr
      refine ⟨by simpa [St.set, Annotated] using hA, fun _ => ⟨?_, by simp [St.set]⟩, fun h => absurd hpr h⟩
      simp only [St.set, if_true, hpr]
      rfl
    · rename_i hpr
      refine ⟨by simpa [St.set, Annotated] using hA, fun h => absurd h hpr, fun _ => ⟨?_, by simp [St.set, hs]⟩⟩
      simp [St.set, annotate, h2, fromSpec, ha]
  · intro j a ha
    obtain ⟨p, q, hpq, -, -, h1, h2⟩ := fold_split r key D ⟨fromSpec r (choose D 0 operators), 1⟩ order hw.once (.ingredient j)
      (hw.all _ (show j < _ from (List.getElem?_eq_some_iff.1 ha).1))
    rw [visited, h1, randomize_ingredient ha]
    have hA := annotated key a.uid a.tags a.notes ((p.foldl (randomize r key D) ⟨fromSpec r (choose D 0 operators), 1⟩).run (.ingredient j)) (by rw [h2]; rfl)
    refine ⟨by simpa [St.set, Annotated] using hA, by simp [St.set, annotate, h2, fromSpec, ha],
      D.random (p.foldl (randomize r key D) ⟨fromSpec r (choose D 0 operators), 1⟩).drawn, (hD _).1, ?_⟩
    simp only [St.set, if_true, randomQuantities, fuzz, Drawn]
    refine ⟨?_, ?_, ?_, ?_⟩
    · cases a.absolute with
      | none => trivial
      | some q => exact ⟨rfl, by dsimp only; grind, by dsimp only; grind⟩
    · cases a.volume with
      | none => trivial
      | some q => exact ⟨rfl, by dsimp only; grind, by dsimp only; grind⟩
    · cases a.mass with
      | none => trivial
      | some q => exact ⟨rfl, by dsimp only; grind, by dsimp only; grind⟩
    · cases a.number with
      | none => trivial
      | some q => exact ⟨rfl, by dsimp only; grind, by dsimp only; grind⟩

/-- the order in which the loop visits -/
theorem loop_order (f : St → Item → St) (kids : Item → List Item) (n : Nat) (s : St) (seen queue : List Item) (res : Except PyErr St)
    (h : loop ⟨fun x => .key x, fun _ => kids, fun _ => true⟩ false (fun s x => .ok (f s x)) n s seen queue = some res) :
    ∃ order, res = .ok (order.foldl f s) ∧ order.Nodup ∧ (∀ x ∈ order, x ∉ seen) ∧ (∀ x ∈ queue, x ∈ seen ∨ x ∈ order) ∧
      (∀ x ∈ order, ∀ y ∈ kids x, y ∈ seen ∨ y ∈ order) ∧ (∀ a x b, order = a ++ x :: b → x ∈ queue ∨ ∃ p ∈ a, x ∈ kids p) := by
  induction n generalizing s seen queue with
  | zero => cases h
  | succ n ih =>
    cases queue with
    | nil =>
      simp only [loop, Option.some.injEq] at h
      exact ⟨[], h.symm, List.nodup_nil, by simp, by simp, by simp, by simp⟩
    | cons x queue =>
      simp only [loop, reduceCtorEq, if_false, mark] at h
      by_cases hx : x ∈ seen
      · simp only [hx, if_true] at h
        obtain ⟨order, h1, h2, h3, h4, h5, h6⟩ := ih _ _ _ h
        refine ⟨order, h1, h2, h3, ?_, h5, ?_⟩
        · intro y hy
          rcases List.mem_cons.1 hy with rfl | hy
          · exact .inl hx
          · exact h4 y hy
        · intro a y b e
          exact (h6 a y b e).imp_left (List.mem_cons_of_mem _)
      · simp only [hx, if_false, act, Bool.false_and, Bool.not_false, Bool.and_self, if_true, Bool.false_eq_true] at h
        obtain ⟨order, h1, h2, h3, h4, h5, h6⟩ := ih _ _ _ h
        have hxo : x ∉ order := fun hm => h3 x hm List.mem_cons_self
        refine ⟨x :: order, h1, List.nodup_cons.2 ⟨hxo, h2⟩, ?_, ?_, ?_, ?_⟩
        · intro y hy
          rcases List.mem_cons.1 hy with rfl | hy
          · exact hx
          · exact fun hm => h3 y hy (List.mem_cons_of_mem _ hm)
        · intro y hy
          rcases List.mem_cons.1 hy with rfl | hy
          · exact .inr List.mem_cons_self
          · rcases h4 y (List.mem_append_right _ hy) with h | h
            · rcases List.mem_cons.1 h with rfl | h
              · exact .inr List.mem_cons_self
              · exact .inl h
            · exact .inr (List.mem_cons_of_mem _ h)
        · intro y hy z hz
          have : z ∈ x :: seen ∨ z ∈ order := by
            rcases List.mem_cons.1 hy with rfl | hy
            · exact h4 z (List.mem_append_left _ (List.mem_reverse.2 hz))
            · exact h5 y hy z hz
          rcases this with h | h
          · rcases List.mem_cons.1 h with rfl | h
            · exact .inr List.mem_cons_self
            · exact .inl h
          · exact .inr (List.mem_cons_of_mem _ h)
        · intro a y b e
          cases a with
          | nil =>
            simp only [List.nil_append, List.cons.injEq] at e
            exact .inl (e.1 ▸ List.mem_cons_self)
          | cons c a =>
            simp only [List.cons_append, List.cons.injEq] at e
            obtain ⟨rfl, e⟩ := e
            rcases h6 a y b e with h | ⟨p, hp, h⟩
            · rcases List.mem_append.1 h with h | h
              · exact .inr ⟨x, List.mem_cons_self, List.mem_reverse.1 h⟩
              · exact .inl (List.mem_cons_of_mem _ h)
            · exact .inr ⟨p, List.mem_cons_of_mem _ hp, h⟩

theorem part_has {r : Recipe} (hr : Whole r) {x : Item} (h : Part r x) : r.Has x := by
  induction h with
  | cake =>
    obtain ⟨a, ha, -⟩ := hr.cake
    exact (List.getElem?_eq_some_iff.1 ha).1
  | next _ hn ih => cases hn with
    | process => exact ih
    | output => exact ih
    | ingredient h => exact (List.getElem?_eq_some_iff.1 h).1
    | used h => exact (hr.numbers _ (List.mem_of_getElem? h)).2
    | material h => exact (hr.numbers _ (List.mem_of_getElem? h)).1

/-- the walk ends, and is as described by `Walk` -/
theorem walk (r : Recipe) (hr : Whole r) (key : String) (D : Draws) (kids : Item → List Item) (hk : ∀ x y, y ∈ kids x ↔ Next r x y) :
    ∃ n order, Walk r order ∧ ∀ n' ≥ n, makeRuns r key D kids n' = some (.ok (visited r key D order)) := by
  have hreach : ∀ x y, Reach kids x y → Part r x → Part r y := by
    intro x y h
    induction h with
    | refl => exact id
    | step h _ ih => exact fun hp => ih (.next hp ((hk _ _).1 h))
  obtain ⟨n, order0, stuck, -, -, -, -, h5⟩ := foreach_ends (σ := St) ⟨fun x => .key x, fun _ => kids, fun _ => true⟩ kids (.material 0)
    { entity_key := fun x _ => ⟨x, rfl⟩
      same_entity := fun x y k h g _ => by simp only [Hash.key.injEq] at h g; rw [h, g]
      same_kids := fun x y k h g => .inl (by simp only [Hash.key.injEq] at h g; rw [h, g])
      finite := ⟨(List.range r.materials.length).map .material ++ (List.range r.materials.length).map .process ++ (List.range r.ingredients.length).map .ingredient, by
        intro x k hx h
        simp only [Hash.key.injEq] at h
        subst h
        have := part_has hr (hreach _ _ hx .cake)
        cases x <;> simpa [Recipe.Has] using this⟩
      nested := ⟨fun _ => 1, fun x _ => ⟨Nat.one_pos, fun h => by cases h⟩⟩ }
  have hn : ∀ n' ≥ n, ∃ e, makeRuns r key D kids n' = some e := fun n' h =>
    ⟨_, h5 false (fun s x => .ok (randomize r key D s x)) (fun _ _ _ _ _ _ => rfl) _ (fun _ => rfl) n' h⟩
  have hsame : ∀ n' ≥ n, makeRuns r key D kids n' = makeRuns r key D kids n := fun n' h => by
    unfold makeRuns
    rw [h5 false (fun s x => .ok (randomize r key D s x)) (fun _ _ _ _ _ _ => rfl) _ (fun _ => rfl) n' h,
      h5 false (fun s x => .ok (randomize r key D s x)) (fun _ _ _ _ _ _ => rfl) _ (fun _ => rfl) n (Nat.le_refl _)]
  obtain ⟨e, he⟩ := hn n (Nat.le_refl _)
  obtain ⟨order, h1, h2, -, h4, h5, h6⟩ := loop_order _ _ _ _ _ _ _ he
  refine ⟨n, order, ⟨h2, ?_, ?_⟩, fun n' h => by rw [hsame n' h, he, h1]⟩
  · intro x hx
    have := hr.parts x hx
    induction this with
    | cake => exact (h4 _ (List.mem_singleton.2 rfl)).resolve_left (by simp)
    | next hp hn ih => exact (h5 _ (ih (part_has hr hp)) _ ((hk _ _).2 hn)).resolve_left (by simp)
  · intro a b i e
    rcases h6 a _ b e with h | ⟨p, hp, h⟩
    · simp at h
    · have hN := (hk _ _).1 h
      cases hN with
      | process => exact hp
      | used hj =>
        exfalso
        rename_i j c
        obtain ⟨a1, a2, rfl⟩ := List.append_of_mem hp
        rcases h6 a1 (.ingredient j) (a2 ++ .process c.process :: b) (by rw [e]; simp) with h | ⟨p, hp', h⟩
        · simp at h
        · have hN' := (hk _ _).1 h
          cases hN' with
          | ingredient hj' =>
            rw [hj] at hj'
            cases hj'
            rw [e] at h2
            exact (List.nodup_append.1 h2).2.2 _ (List.mem_append_left _ hp') _ List.mem_cons_self rfl

/-- C78: for every whole recipe, every key, all draws and every order of the references of a run: the walk ends, and the runs are what they should be. -/
theorem C78_runs (r : Recipe) (hr : Whole r) (key : String) (D : Draws) (hD : D.Fair) (kids : Item → List Item) (hk : ∀ x y, y ∈ kids x ↔ Next r x y) :
    ∃ n s, Made r key s ∧ ∀ n' ≥ n, makeRuns r key D kids n' = some (.ok s) := by
  obtain ⟨n, order, h1, h2⟩ := walk r hr key D kids hk
  refine ⟨n, _, made r ?_ key D hD order h1, h2⟩
  obtain ⟨a, ha, ht⟩ := hr.cake
  intro b hb
  rw [ha] at hb
  cases hb
  exact ht

/-! ### What the draws cannot change -/

/-- C78: the amount of the spec is within one standard deviation of the mean of that of the run, and a mass fraction of the spec is within the bounds of that of the run. -/
theorem C78_within (a : Ingredient) (q : Quantities) (x : Rat) (hx : 0 ≤ x ∧ x < 1) (h : Drawn a x q) :
    (∀ s d, a.absolute = some s → q.absolute = some d → 0 ≤ s.nominal → d.mean - d.std ≤ s.nominal ∧ s.nominal ≤ d.mean + d.std) ∧
    (∀ s d, a.number = some s → q.number = some d → 0 ≤ s.nominal → d.mean - d.std ≤ s.nominal ∧ s.nominal ≤ d.mean + d.std) ∧
    (∀ s d, a.mass = some s → q.mass = some d → 0 ≤ s.nominal → d.lower ≤ s.nominal ∧ s.nominal ≤ d.upper) := by
  obtain ⟨h1, h2, h3, h4⟩ := h
  have key : ∀ n : Rat, 0 ≤ n → 0 ≤ x * n ∧ x * n ≤ n := fun n hn => ⟨Rat.mul_nonneg hx.1 hn, by
    have := Rat.mul_le_mul_of_nonneg_right (Rat.le_of_lt hx.2) hn
    grind⟩
  refine ⟨fun s d hs hd hn => ?_, fun s d hs hd hn => ?_, fun s d hs hd hn => ?_⟩
  · rw [hs, hd] at h1
    obtain ⟨-, h5, h6⟩ := h1
    have := key _ hn
    rw [h5, h6]
    grind
  · rw [hs, hd] at h4
    obtain ⟨-, h5, h6⟩ := h4
    have := key _ hn
    rw [h5, h6]
    grind
  · rw [hs, hd] at h3
    obtain ⟨-, h5, h6⟩ := h3
    have := key _ hn
    rw [h5, h6]
    grind

/-! ### Finding by name -/

theorem find_depth (r : Recipe) (name : Nat → String) (t : String) (is l : List Nat) (h : Depth r is l) :
    ∃ N, ∀ n ≥ N, firstOf (findName r name t n) is = some (l.find? fun i => isIn t (name i)) := by
  induction h with
  | nil => exact ⟨0, fun _ _ => rfl⟩
  | cons _ _ ih1 ih2 =>
    rename_i i is below rest _ _
    obtain ⟨N1, h1⟩ := ih1
    obtain ⟨N2, h2⟩ := ih2
    refine ⟨N1 + 1 + N2, fun n hn => ?_⟩
    obtain ⟨m, rfl⟩ : ∃ m, n = m + 1 := ⟨n - 1, by omega⟩
    have e1 := h1 m (by omega)
    have e2 := h2 (m + 1) (by omega)
    rw [firstOf]
    by_cases hc : isIn t (name i) = true
    · simp [findName, hc]
    · have : findName r name t (m + 1) i = some (below.find? fun i => isIn t (name i)) := by
        rw [findName, if_neg hc]
        exact e1
      rw [this, List.cons_append, List.find?_cons_of_neg (p := fun i => isIn t (name i)) hc, List.find?_append]
      cases hf : below.find? fun i => isIn t (name i) with
      | none => simpa using e2
      | some k => simp

/-- C78: `_find_name` finds, of the materials that go into a material (it first, then those that go into it, each followed by what goes into that), the first in whose name the text occurs;
`None` if there is none. -/
theorem C78_find (r : Recipe) (name : Nat → String) (t : String) (i : Nat) (l : List Nat) (h : Depth r [i] l) :
    ∃ N, ∀ n ≥ N,
      (∀ k, findName r name t n i = some (some k) ↔ ∃ a b, l = a ++ k :: b ∧ (∃ p q, (name k).toList = p ++ t.toList ++ q) ∧ ∀ x ∈ a, ¬ ∃ p q, (name x).toList = p ++ t.toList ++ q) ∧
      (findName r name t n i = some none ↔ ∀ x ∈ l, ¬ ∃ p q, (name x).toList = p ++ t.toList ++ q) := by
  obtain ⟨N, hN⟩ := find_depth r name t _ _ h
  refine ⟨N, fun n hn => ?_⟩
  have e : findName r name t n i = some (l.find? fun i => isIn t (name i)) := by
    have := hN n hn
    rw [firstOf] at this
    cases hf : findName r name t n i with
    | none => simp [hf] at this
    | some o => cases o with
      | none => simpa [hf, firstOf] using this
      | some k => simpa [hf] using this
  simp only [← isIn_iff]
  rw [e]
  refine ⟨fun k => ?_, ?_⟩
  · rw [Option.some.injEq, List.find?_eq_some_iff_append]
    constructor
    · rintro ⟨h1, a, b, h2, h3⟩
      exact ⟨a, b, h2, h1, fun x hx => by simpa using h3 x hx⟩
    · rintro ⟨a, b, h2, h1, h3⟩
      exact ⟨h1, a, b, h2, fun x hx => by simpa using h3 x hx⟩
  · rw [Option.some.injEq, List.find?_eq_none]

/-! ### The recipe -/

/-- the depth first order, computed -/
def depthOf (r : Recipe) : Nat → List Nat → Option (List Nat)
  | 0, _ => none
  | _ + 1, [] => some []
  | n + 1, i :: is => match depthOf r n (materialsOf r i), depthOf r n is with
    | some a, some b => some (i :: a ++ b)
    | _, _ => none

theorem depthOf_spec (r : Recipe) (n : Nat) (is l : List Nat) (h : depthOf r n is = some l) : Depth r is l := by
  induction n generalizing is l with
  | zero => cases h
  | succ n ih =>
    cases is with
    | nil => cases h; exact .nil
    | cons i is =>
      rw [depthOf] at h
      split at h
      · rename_i a b h1 h2
        cases h
        exact .cons (ih _ _ h1) (ih _ _ h2)
      · cases h

/-- cake; frosting with butter, vanilla, milk, chocolate and powdered sugar; baked cake; batter; wet ingredients with sugar, butter, eggs and vanilla; dry ingredients with flour,
baking powder and salt; milk -/
theorem depth_recipe : Depth recipe [0] [0, 1, 10, 12, 13, 14, 15, 2, 3, 4, 9, 10, 11, 12, 5, 6, 7, 8, 13] := depthOf_spec recipe 20 _ _ (by decide +kernel)

/-- all runs of the recipe -/
def items : List Item := (List.range 16).map .material ++ (List.range 16).map .process ++ (List.range 18).map .ingredient

theorem lengths : recipe.materials.length = 16 ∧ recipe.ingredients.length = 18 := by decide +kernel

/-- C78: the recipe is whole: everything in it goes into the cake, which is not bought. -/
theorem C78_whole : Whole recipe := by
  have hc : recipe.materials[0]?.map (fun a => a.template) = some "Icing" := by decide +kernel
  have hlink : ∀ j < 18, ∃ a, recipe.ingredients[j]? = some a ∧ a.process < a.material ∧ a.material < 16 := by
    have : (List.range 18).all (fun j => match recipe.ingredients[j]? with | some a => decide (a.process < a.material ∧ a.material < 16) | none => false) = true := by decide +kernel
    rw [List.all_eq_true] at this
    intro j hj
    have := this j (List.mem_range.2 hj)
    cases h : recipe.ingredients[j]? with
    | none => simp [h] at this
    | some a => exact ⟨a, rfl, by simpa [h] using this⟩
  have hused : ∀ i < 16, 0 < i → ∃ j < 18, ∃ a, recipe.ingredients[j]? = some a ∧ a.material = i := by
    have : (List.range 16).all (fun i => i = 0 || (List.range 18).any (fun j => match recipe.ingredients[j]? with | some a => decide (a.material = i) | none => false)) = true := by
      decide +kernel
    rw [List.all_eq_true] at this
    intro i hi h0
    have := this i (List.mem_range.2 hi)
    simp only [Bool.or_eq_true, decide_eq_true_eq, List.any_eq_true, List.mem_range] at this
    rcases this with h | ⟨j, hj, h⟩
    · omega
    · cases hh : recipe.ingredients[j]? with
      | none => simp [hh] at h
      | some a => exact ⟨j, hj, a, hh, by simpa [hh] using h⟩
  have hmat : ∀ k i, i ≤ k → i < 16 → Part recipe (.material i) := by
    intro k
    induction k with
    | zero => intro i hi _; obtain rfl : i = 0 := by omega
              exact .cake
    | succ k ih =>
      intro i hi h16
      by_cases h0 : i = 0
      · subst h0; exact .cake
      · obtain ⟨j, hj, a, ha, hm⟩ := hused i h16 (by omega)
        obtain ⟨b, hb, h1, h2⟩ := hlink j hj
        rw [ha] at hb
        cases hb
        have := ih a.process (by omega) (by omega)
        exact hm ▸ .next (.next (.next this (.process _)) (.ingredient ha)) (.material ha)
  refine ⟨?_, ?_, ?_⟩
  · cases h : recipe.materials[0]? with
    | none => simp [h] at hc
    | some a => exact ⟨a, rfl, by simp [h] at hc; simp [hc]⟩
  · intro a ha
    obtain ⟨j, hj, hja⟩ := List.getElem_of_mem ha
    rw [lengths.2] at hj
    obtain ⟨b, hb, h1, h2⟩ := hlink j hj
    rw [List.getElem?_eq_some_iff] at hb
    obtain ⟨_, hb⟩ := hb
    rw [hja] at hb
    subst hb
    rw [lengths.1]
    omega
  · intro x hx
    cases x with
    | material i => exact hmat i i (Nat.le_refl _) (lengths.1 ▸ hx)
    | process i => exact .next (hmat i i (Nat.le_refl _) (lengths.1 ▸ hx)) (.process i)
    | ingredient j =>
      obtain ⟨a, ha, h1, h2⟩ := hlink j (lengths.2 ▸ hx)
      exact .next (.next (hmat _ a.process (Nat.le_refl _) (by omega)) (.process _)) (.ingredient ha)

/-- C78: the names of the materials and the ids of materials, processes and ingredients; what is bought is tagged as raw and made of nothing, what is not is made of something; an ingredient has one quantity at most; and the volume fractions
of the dry ingredients and the mass fractions of the frosting, which are all there are, add up to one. -/
theorem C78_recipe :
    recipe.materials.map (·.name) = ["Cake", "Frosting", "Baked Cake", "Batter", "Wet Ingredients", "Dry Ingredients", "Flour", "Baking Powder", "Salt", "Sugar", "Butter", "Eggs", "Vanilla",
      "Milk", "Chocolate", "Powdered Sugar"] ∧
    recipe.materials.map (·.uid) = ["cake", "frosting", "baked-cake", "batter", "wet-ingredients", "dry-ingredients", "flour", "baking-powder", "salt", "sugar", "butter", "eggs", "vanilla",
      "milk", "chocolate", "powdered-sugar"] ∧
    recipe.materials.map (·.processUid) = ["icing-cake", "mixing-frosting", "baking-baked-cake", "mixing-batter", "mixing-wet-ingredients", "mixing-dry-ingredients"] ++
      ["flour", "baking-powder", "salt", "sugar", "butter", "eggs", "vanilla", "milk", "chocolate", "powdered-sugar"].map ("procuring-" ++ ·) ∧
    (∀ a ∈ recipe.ingredients, ∃ b c, recipe.materials[a.material]? = some b ∧ recipe.materials[a.process]? = some c ∧ a.uid = b.uid ++ "--" ++ c.processUid) ∧
    (∀ i < 16, ∃ a, recipe.materials[i]? = some a ∧ (a.template = "Procuring" ↔ "raw material" ∈ a.tags) ∧ (a.template = "Procuring" ↔ ∀ b ∈ recipe.ingredients, b.process ≠ i)) ∧
    (∀ a ∈ recipe.ingredients, (a.absolute.toList ++ a.volume.toList ++ a.mass.toList ++ a.number.toList).length ≤ 1) ∧
    (∀ a ∈ recipe.ingredients, (a.volume ≠ none ↔ a.process = 5) ∧ (a.mass ≠ none ↔ a.process = 1) ∧ a.number = none) ∧
    ((recipe.ingredients.filterMap (·.volume)).map (·.nominal)).sum = 1 ∧ ((recipe.ingredients.filterMap (·.mass)).map (·.nominal)).sum = 1 := by
  have h : ∀ i < 16, ((recipe.materials[i]?.map fun a => decide ((a.template = "Procuring" ↔ "raw material" ∈ a.tags) ∧
      (a.template = "Procuring" ↔ ∀ b ∈ recipe.ingredients, b.process ≠ i))) = some true) := by decide +kernel
  refine ⟨by decide +kernel, by decide +kernel, by decide +kernel, fun a ha => ?_, fun i hi => ?_, by decide +kernel, by decide +kernel, by decide +kernel, by decide +kernel⟩
  · have g : ∀ a ∈ recipe.ingredients, (recipe.materials[a.material]?.bind fun b => recipe.materials[a.process]?.map fun c => decide (a.uid = b.uid ++ "--" ++ c.processUid)) = some true := by
      decide +kernel
    have := g a ha
    cases hb : recipe.materials[a.material]? with
    | none => simp [hb] at this
    | some b =>
      cases hc : recipe.materials[a.process]? with
      | none => simp [hb, hc] at this
      | some c => exact ⟨b, c, rfl, rfl, by simpa [hb, hc] using this⟩
  have := h i hi
  cases ha : recipe.materials[i]? with
  | none => simp [ha] at this
  | some a => exact ⟨a, rfl, by simpa [ha] using this⟩

/-! ### The measurements -/

/-- the names that the run of a material may have -/
def possible (a : Material) : List String :=
  if "raw material" ∈ a.tags then (if "produce" ∈ a.tags then producers else drygoods).map (· ++ " " ++ a.name) else [a.name]

theorem named_possible {a : Material} {name : String} (h : Named a name) : name ∈ possible a := by
  unfold possible
  rcases h with ⟨h1, rfl⟩ | ⟨h1, h2, s, hs, rfl⟩ | ⟨h1, h2, s, hs, rfl⟩
  · simp [h1]
  · simp only [h1, h2, if_true]
    exact List.mem_map.2 ⟨s, hs, rfl⟩
  · simp only [h1, h2, if_true, if_false]
    exact List.mem_map.2 ⟨s, hs, rfl⟩

theorem possible_found : ∀ i < 16, ∀ a, recipe.materials[i]? = some a → ∀ name ∈ possible a,
    (isIn "Flour" name = decide (i = 6)) ∧ (isIn "Salt" name = decide (i = 8)) ∧ (isIn "Sugar" name = decide (i = 9 ∨ i = 15)) := by
  have : ∀ i < 16, (recipe.materials[i]?.map fun a => decide (∀ name ∈ possible a, (isIn "Flour" name = decide (i = 6)) ∧ (isIn "Salt" name = decide (i = 8)) ∧
      (isIn "Sugar" name = decide (i = 9 ∨ i = 15)))) = some true := by decide +kernel
  intro i hi a ha
  have := this i hi
  rw [ha] at this
  simpa using this

/-- C78: whatever is drawn, the measurements are of the cake, the frosting, the baked cake, the flour, the salt and the powdered sugar. -/
theorem C78_measured (key : String) (s : St) (h : Made recipe key s) :
    ∃ N, ∀ n ≥ N, ∃ frosting baked flour salt sugar : Nat,
      measured recipe s n = some [⟨"Final Taste", 0, "Taste"⟩, ⟨"Final Appearance", 0, "Appearance"⟩, ⟨"Frosting Taste", frosting, "Taste"⟩, ⟨"Frosting Sweetness", frosting, "Sweetness"⟩,
        ⟨"Baking doneness", baked, "Doneness"⟩, ⟨"Flour nutritional analysis", flour, "Nutritional analysis"⟩, ⟨"Salt elemental analysis", salt, "Elemental analysis"⟩,
        ⟨"Sugar elemental analysis", sugar, "Elemental analysis"⟩] ∧
      [frosting, baked, flour, salt, sugar].map (fun i => recipe.materials[i]?.map (·.name)) =
        [some "Frosting", some "Baked Cake", some "Flour", some "Salt", some "Powdered Sugar"] := by
  obtain ⟨N1, h1⟩ := find_depth recipe (fun i => (s.run (.material i)).name) "Flour" _ _ depth_recipe
  obtain ⟨N2, h2⟩ := find_depth recipe (fun i => (s.run (.material i)).name) "Salt" _ _ depth_recipe
  obtain ⟨N3, h3⟩ := find_depth recipe (fun i => (s.run (.material i)).name) "Sugar" _ _ depth_recipe
  have hf : ∀ i < 16, (isIn "Flour" (s.run (.material i)).name = decide (i = 6)) ∧ (isIn "Salt" (s.run (.material i)).name = decide (i = 8)) ∧
      (isIn "Sugar" (s.run (.material i)).name = decide (i = 9 ∨ i = 15)) := by
    intro i hi
    cases ha : recipe.materials[i]? with
    | none => rw [List.getElem?_eq_none_iff, lengths.1] at ha; omega
    | some a => exact possible_found i hi a ha _ (named_possible (h.1 i a ha).2)
  have hone : ∀ (t : String) (n i : Nat) (o : Option Nat), firstOf (findName recipe (fun i => (s.run (.material i)).name) t n) [i] = some o →
      findName recipe (fun i => (s.run (.material i)).name) t n i = some o := by
    intro t n i o e
    rw [firstOf] at e
    cases hf : findName recipe (fun i => (s.run (.material i)).name) t n i with
    | none => simp [hf] at e
    | some o => cases o with
      | none => simpa [hf, firstOf] using e
      | some k => simpa [hf] using e
  have hfind : ∀ p q : Nat → Bool, (∀ i < 16, p i = q i) →
      [0, 1, 10, 12, 13, 14, 15, 2, 3, 4, 9, 10, 11, 12, 5, 6, 7, 8, 13].find? p = [0, 1, 10, 12, 13, 14, 15, 2, 3, 4, 9, 10, 11, 12, 5, 6, 7, 8, 13].find? q := by
    intro p q hpq
    simp only [List.find?]
    rw [hpq 0 (by decide), hpq 1 (by decide), hpq 10 (by decide), hpq 12 (by decide), hpq 13 (by decide), hpq 14 (by decide), hpq 15 (by decide), hpq 2 (by decide), hpq 3 (by decide),
      hpq 4 (by decide), hpq 9 (by decide), hpq 11 (by decide), hpq 5 (by decide), hpq 6 (by decide), hpq 7 (by decide), hpq 8 (by decide)]
  have hname : ∀ t, firstNamed recipe s t = firstNamed recipe ⟨fromSpec recipe "", 0⟩ t := by
    intro t
    unfold firstNamed
    have : ∀ l : List Nat, (∀ j ∈ l, j < 18) → l.find? (fun j => isIn t (s.run (.ingredient j)).name) = l.find? (fun j => isIn t (fromSpec recipe "" (.ingredient j)).name) := by
      intro l hl
      induction l with
      | nil => rfl
      | cons j l ih =>
        have hj := hl j List.mem_cons_self
        have : (s.run (.ingredient j)).name = (fromSpec recipe "" (.ingredient j)).name := by
          cases ha : recipe.ingredients[j]? with
          | none => rw [List.getElem?_eq_none_iff, lengths.2] at ha; omega
          | some a => simp [(h.2.2 j a ha).2.1, fromSpec, ha]
        rw [List.find?_cons, List.find?_cons, this, ih (fun k hk => hl k (List.mem_cons_of_mem _ hk))]
    rw [this _ (fun j hj => by
      have := (List.mem_filter.1 hj).1
      rw [List.mem_range, lengths.2] at this
      exact this)]
  refine ⟨N1 + N2 + N3, fun n hn => ⟨1, 2, 6, 8, 15, ?_, by decide +kernel⟩⟩
  have e1 := hone _ _ _ _ (h1 n (by omega))
  have e2 := hone _ _ _ _ (h2 n (by omega))
  have e3 := hone _ _ _ _ (h3 n (by omega))
  rw [hfind _ (fun i => decide (i = 6)) (fun i hi => (hf i hi).1)] at e1
  rw [hfind _ (fun i => decide (i = 8)) (fun i hi => (hf i hi).2.1)] at e2
  rw [hfind _ (fun i => decide (i = 9 ∨ i = 15)) (fun i hi => (hf i hi).2.2)] at e3
  have g1 : firstNamed recipe ⟨fromSpec recipe "", 0⟩ "rosting" = some 1 := by decide +kernel
  have g2 : firstNamed recipe ⟨fromSpec recipe "", 0⟩ "aked" = some 2 := by decide +kernel
  simp only [measured, hname, g1, g2, e1, e2, e3]
  rfl

/-- C78: the sugar analysis should be of the sugar, and it never is: it is of the powdered sugar of the frosting, which comes first. -/
theorem C78_sugar_counterexample (key : String) (s : St) (h : Made recipe key s) :
    ∃ N, ∀ n ≥ N, ∃ ms m i, measured recipe s n = some ms ∧ m ∈ ms ∧ m.name = "Sugar elemental analysis" ∧
      recipe.materials[i]?.map (·.name) = some "Sugar" ∧ m.material ≠ i ∧ recipe.materials[m.material]?.map (·.name) = some "Powdered Sugar" := by
  obtain ⟨N, hN⟩ := C78_measured key s h
  refine ⟨N, fun n hn => ?_⟩
  obtain ⟨fr, b, fl, sa, su, h1, h2⟩ := hN n hn
  simp only [List.map_cons, List.map_nil, List.cons.injEq, and_true] at h2
  refine ⟨_, ⟨"Sugar elemental analysis", su, "Elemental analysis"⟩, 9, h1, by simp, rfl, by decide +kernel, ?_, h2.2.2.2.2⟩
  intro h9
  have h9 : su = 9 := h9
  have := h2.2.2.2.2
  rw [h9] at this
  exact absurd this (by decide +kernel)

/-- C78: the volume fractions of the runs of the dry ingredients do not add up to one: the means always add up to between 1.0135 and 1.0165. -/
theorem C78_volume_counterexample (key : String) (s : St) (h : Made recipe key s) : ∃ v, (recipe.ingredients.mapIdx fun j _ => (s.run (.ingredient j)).quantities.volume).filterMap id = v ∧
    v.length = 3 ∧ 1.0135 ≤ (v.map (·.mean)).sum ∧ (v.map (·.mean)).sum < 1.0165 := by
  have hvol : ∀ j < 18, (recipe.ingredients[j]?.map (·.volume)) = some (if j = 5 then some ⟨0.9829, ""⟩ else if j = 6 then some ⟨0.0137, ""⟩ else if j = 7 then some ⟨0.0034, ""⟩ else none) := by
    decide +kernel
  have hrun : ∀ j < 18, ∃ x : Rat, 0 ≤ x ∧ x < 1 ∧ Shifted x (if j = 5 then some ⟨0.9829, ""⟩ else if j = 6 then some ⟨0.0137, ""⟩ else if j = 7 then some ⟨0.0034, ""⟩ else none)
      (s.run (.ingredient j)).quantities.volume := by
    intro j hj
    have hv := hvol j hj
    cases ha : recipe.ingredients[j]? with
    | none => simp [ha] at hv
    | some a =>
      rw [ha] at hv
      simp only [Option.map_some, Option.some.injEq] at hv
      obtain ⟨-, -, x, hx, -, hd, -⟩ := h.2.2 j a ha
      rw [hv] at hd
      exact ⟨x, hx.1, hx.2, hd⟩
  have hnone : ∀ j < 18, j ≠ 5 → j ≠ 6 → j ≠ 7 → (s.run (.ingredient j)).quantities.volume = none := by
    intro j hj h5 h6 h7
    obtain ⟨x, -, -, hs⟩ := hrun j hj
    simp only [h5, h6, h7, if_false] at hs
    cases hq : (s.run (.ingredient j)).quantities.volume with
    | none => rfl
    | some d => rw [hq] at hs; exact hs.elim
  have hsome : ∀ j < 18, ∀ q : Quantity, (if j = 5 then some ⟨0.9829, ""⟩ else if j = 6 then some ⟨0.0137, ""⟩ else if j = 7 then some ⟨0.0034, ""⟩ else none) = some q →
      ∃ d, (s.run (.ingredient j)).quantities.volume = some d ∧ q.nominal + 0.0045 ≤ d.mean ∧ d.mean < q.nominal + 0.0055 := by
    intro j hj q hq
    obtain ⟨x, h0, h1, hs⟩ := hrun j hj
    rw [hq] at hs
    cases hd : (s.run (.ingredient j)).quantities.volume with
    | none => rw [hd] at hs; exact hs.elim
    | some d =>
      rw [hd] at hs
      obtain ⟨-, -, hm⟩ := hs
      refine ⟨d, rfl, ?_, ?_⟩ <;> rw [hm] <;> grind
  obtain ⟨d5, e5, l5, u5⟩ := hsome 5 (by decide) ⟨0.9829, ""⟩ rfl
  obtain ⟨d6, e6, l6, u6⟩ := hsome 6 (by decide) ⟨0.0137, ""⟩ rfl
  obtain ⟨d7, e7, l7, u7⟩ := hsome 7 (by decide) ⟨0.0034, ""⟩ rfl
  have hl : (recipe.ingredients.mapIdx fun j _ => (s.run (.ingredient j)).quantities.volume) = (List.range 18).map fun j => (s.run (.ingredient j)).quantities.volume := by
    apply List.ext_getElem
    · simp [lengths.2]
    · intro i h1 h2
      simp
  have hv : (recipe.ingredients.mapIdx fun j _ => (s.run (.ingredient j)).quantities.volume).filterMap id = [d5, d6, d7] := by
    rw [hl]
    have : List.range 18 = [0, 1, 2, 3, 4, 5, 6, 7, 8, 9, 10, 11, 12, 13, 14, 15, 16, 17] := by decide
    rw [this]
    simp [e5, e6, e7, hnone]
  refine ⟨_, hv, rfl, ?_, ?_⟩
  · simp only [List.map_cons, List.map_nil, List.sum_cons, List.sum_nil]
    grind
  · simp only [List.map_cons, List.map_nil, List.sum_cons, List.sum_nil]
    grind

/-! ### Ids -/

/-- the ids of the specs of the materials, the processes and the ingredients -/
def specUids : List String := recipe.materials.map (·.uid) ++ recipe.materials.map (·.processUid) ++ recipe.ingredients.map (·.uid)

/-- the ids of their runs -/
def runUids (s : St) : List String :=
  (List.range 16).map (fun i => ((s.run (.material i)).uid).getD "") ++ (List.range 16).map (fun i => ((s.run (.process i)).uid).getD "") ++
    (List.range 18).map (fun j => ((s.run (.ingredient j)).uid).getD "")

/-- the ids of the specs of the measurements; the specs are made anew, one for each of these names -/
def measurementSpecUids : List String := ["taste", "appearance", "sweetness", "doneness", "nutritional analysis", "elemental analysis"]

/-- C78: in the recipe, no two objects that are made have the same id in the scope of the demo, be they specs, runs or measurements. `key` is a hexadecimal digest of 32 characters. -/
theorem C78_ids (key : String) (hk : key.toList.length = 32) (hd : '-' ∉ key.toList) (s : St) (h : Made recipe key s) : ∃ N, ∀ n ≥ N, ∃ ms, measured recipe s n = some ms ∧
    (∀ m ∈ ms, lower m.spec ∈ measurementSpecUids) ∧ (specUids ++ measurementSpecUids ++ runUids s ++ ms.map (Measurement.uid recipe key)).Nodup := by
  obtain ⟨N, hN⟩ := C78_measured key s h
  refine ⟨N, fun n hn => ?_⟩
  obtain ⟨fr, b, fl, sa, su, h1, h2⟩ := hN n hn
  refine ⟨_, h1, fun m hm => ?_, ?_⟩
  · have hl : ∀ t ∈ ["Taste", "Appearance", "Taste", "Sweetness", "Doneness", "Nutritional analysis", "Elemental analysis", "Elemental analysis"], lower t ∈ measurementSpecUids := by
      decide +kernel
    exact hl _ (List.mem_map_of_mem (f := fun m : Measurement => m.spec) hm)
  simp only [List.map_cons, List.map_nil, List.cons.injEq, and_true] at h2
  have hnum : ∀ (i : Nat) (name : String), recipe.materials[i]?.map (·.name) = some name → ∃ u, recipe.materials[i]?.map (·.uid) = some u ∧ u = slug name := by
    intro i name hi
    have : ∀ i < 16, (recipe.materials[i]?.map fun a => decide (a.uid = slug a.name)) = some true := by decide +kernel
    cases ha : recipe.materials[i]? with
    | none => simp [ha] at hi
    | some a =>
      have hi16 : i < 16 := lengths.1 ▸ (List.getElem?_eq_some_iff.1 ha).1
      have := this i hi16
      rw [ha] at this hi
      simp only [Option.map_some, Option.some.injEq, decide_eq_true_eq] at this hi
      exact ⟨a.uid, rfl, by rw [this, hi]⟩
  obtain ⟨_, f1, rfl⟩ := hnum _ _ h2.1
  obtain ⟨_, f2, rfl⟩ := hnum _ _ h2.2.1
  obtain ⟨_, f3, rfl⟩ := hnum _ _ h2.2.2.1
  obtain ⟨_, f4, rfl⟩ := hnum _ _ h2.2.2.2.1
  obtain ⟨_, f5, rfl⟩ := hnum _ _ h2.2.2.2.2
  have f0 : recipe.materials[0]?.map (·.uid) = some (slug "Cake") := by decide +kernel
  have hm : [(⟨"Final Taste", 0, "Taste"⟩ : Measurement), ⟨"Final Appearance", 0, "Appearance"⟩, ⟨"Frosting Taste", fr, "Taste"⟩, ⟨"Frosting Sweetness", fr, "Sweetness"⟩,
        ⟨"Baking doneness", b, "Doneness"⟩, ⟨"Flour nutritional analysis", fl, "Nutritional analysis"⟩, ⟨"Salt elemental analysis", sa, "Elemental analysis"⟩,
        ⟨"Sugar elemental analysis", su, "Elemental analysis"⟩].map (Measurement.uid recipe key) =
      [lower "Taste" ++ "--" ++ slug "Cake", lower "Appearance" ++ "--" ++ slug "Cake", lower "Taste" ++ "--" ++ slug "Frosting", lower "Sweetness" ++ "--" ++ slug "Frosting",
        lower "Doneness" ++ "--" ++ slug "Baked Cake", lower "Nutritional analysis" ++ "--" ++ slug "Flour", lower "Elemental analysis" ++ "--" ++ slug "Salt",
        lower "Elemental analysis" ++ "--" ++ slug "Powdered Sugar"].map (· ++ "-" ++ key) := by
    simp only [List.map_cons, List.map_nil, Measurement.uid, f0, f1, f2, f3, f4, f5, Option.getD_some]
  have hr : runUids s = specUids.map (· ++ "-" ++ key) := by
    unfold runUids specUids
    rw [List.map_append, List.map_append]
    congr 1
    · congr 1
      · apply List.ext_getElem
        · simp [lengths.1]
        · intro i g1 g2
          simp only [List.length_map, List.length_range] at g1
          have ha : recipe.materials[i]? = some (recipe.materials[i]'(lengths.1 ▸ g1)) := List.getElem?_eq_getElem _
          simp [(h.1 i _ ha).1.1]
      · obtain ⟨w, -, hp⟩ := h.2.1
        apply List.ext_getElem
        · simp [lengths.1]
        · intro i g1 g2
          simp only [List.length_map, List.length_range] at g1
          have ha : recipe.materials[i]? = some (recipe.materials[i]'(lengths.1 ▸ g1)) := List.getElem?_eq_getElem _
          simp [(hp i _ ha).1.1]
    · apply List.ext_getElem
      · simp [lengths.2]
      · intro i g1 g2
        simp only [List.length_map, List.length_range] at g1
        have ha : recipe.ingredients[i]? = some (recipe.ingredients[i]'(lengths.2 ▸ g1)) := List.getElem?_eq_getElem _
        simp [(h.2.2 i _ ha).1.1]
  rw [hm, hr, List.append_assoc, ← List.map_append, List.nodup_append]
  have hinj : ∀ u v : String, u ++ "-" ++ key = v ++ "-" ++ key → u = v := by
    intro u v e
    have e := congrArg String.toList e
    simp only [String.toList_append, List.append_assoc] at e
    exact String.toList_injective (List.append_cancel_right e)
  refine ⟨by decide +kernel, ?_, ?_⟩
  · exact List.Pairwise.map _ (fun u v huv e => huv (hinj u v e)) (by decide +kernel : List.Nodup _)
  · have hspec : ∀ u ∈ specUids ++ measurementSpecUids, u.toList.length < 33 ∨ '-' ∈ (u.toList.drop (u.toList.length - 32)) := by decide +kernel
    rintro u hu v hv rfl
    rw [List.mem_map] at hv
    obtain ⟨w, -, e⟩ := hv
    have e := congrArg String.toList e
    simp only [String.toList_append] at e
    rcases hspec u hu with hlt | hdash
    · rw [← e] at hlt
      simp [hk] at hlt
      omega
    · rw [← e, List.length_append, hk, Nat.add_sub_cancel, List.drop_left] at hdash
      exact hd hdash

/-! ### Scopes -/

/-- C78: after `change_scope(data, templates=templates)` the scopes are those given, whatever they were; that of the templates, if it is not given, is that of the data with a suffix. -/
theorem C78_scopes (s : Scopes) (data : String) (t : String) : changeScope s data (some t) = ⟨data, t⟩ ∧ changeScope s data none = ⟨data, data ++ "-template"⟩ ∧
    changeScope s "citrine-demo" none = Scopes.initial := ⟨rfl, rfl, rfl⟩

/-- C78: the ids of the templates differ from each other, and from those of the data if the scopes do. -/
theorem C78_template_ids (s : Scopes) : (templateUids s).Nodup ∧ templateNames.length = 25 ∧
    (s.templates ≠ s.data → ∀ u : String, (s.data, u) ∉ templateUids s) := by
  refine ⟨?_, by decide, ?_⟩
  · have h : (templateNames.map slug).Nodup := by decide +kernel
    unfold templateUids
    have : (templateNames.map fun k => (s.templates, slug k)) = (templateNames.map slug).map fun u => (s.templates, u) := by simp
    rw [this]
    exact List.Pairwise.map _ (fun u v huv e => huv (Prod.mk.inj e).2) h
  · intro h u hu
    simp only [templateUids, List.mem_map, Prod.mk.injEq] at hu
    obtain ⟨k, -, e, -⟩ := hu
    exact h e

/-- C78: with one scope for both they do not: the measurement template and the measurement spec of the doneness test both get the id "doneness". -/
theorem C78_scope_counterexample (s : Scopes) (scope : String) :
    ∃ u, (scope, u) ∈ templateUids (changeScope s scope (some scope)) ∧ u ∈ measurementSpecUids ∧ (changeScope s scope (some scope)).data = scope := by
  refine ⟨"doneness", ?_, by decide, rfl⟩
  have : "doneness" = slug "Doneness" := by decide +kernel
  rw [this]
  exact List.mem_map_of_mem (f := fun k => (scope, slug k)) (by decide)

/-- C78: every ingredient of the recipe has a name and labels that the template of its process allows. -/
theorem C78_allowed (a : Ingredient) (ha : a ∈ recipe.ingredients) : ∃ m t, recipe.materials[a.process]? = some m ∧ t ∈ processTemplates ∧ t.1 = m.template ∧ t.1 ∈ templateNames ∧
    (∀ names, t.2.1 = some names → a.name ∈ names) ∧ (∀ labels, t.2.2 = some labels → ∀ x ∈ a.labels, x ∈ labels) := by
  have h : ∀ a ∈ recipe.ingredients, (recipe.materials[a.process]?.map fun m => processTemplates.any fun t => decide (t.1 = m.template ∧ t.1 ∈ templateNames) &&
      (match t.2.1 with | some names => decide (a.name ∈ names) | none => true) && (match t.2.2 with | some labels => decide (∀ x ∈ a.labels, x ∈ labels) | none => true)) = some true := by
    decide +kernel
  have := h a ha
  cases hm : recipe.materials[a.process]? with
  | none => simp [hm] at this
  | some m =>
    rw [hm] at this
    simp only [Option.map_some, Option.some.injEq, List.any_eq_true, Bool.and_eq_true, decide_eq_true_eq] at this
    obtain ⟨t, ht, ⟨⟨h1, h2⟩, h3⟩, h4⟩ := this
    refine ⟨m, t, rfl, ht, h1, h2, ?_, ?_⟩
    · intro names e
      simpa [e] using h3
    · intro labels e
      simpa [e] using h4

/-! ### The flexural test -/

/-- C79: the stress is 60 MPa, the strain in proportion to the deflection, and the modulus their ratio; each has a standard deviation of 1 %. The deflection is as given, tags are added at
the end. A deflection of 0 is a ZeroDivisionError. -/
theorem C79_flexural (id : String) (d : Rat) (extra : List String) :
    (d = 0 ∧ flexural id d extra = .error .raised) ∨
    (d ≠ 0 ∧ ∃ strain modulus : Rat, strain * 512 = 3 * d ∧ modulus * strain = 60 ∧ flexural id d extra = .ok ⟨"3 Point Bend", id, "3_pt_bend" :: "mechanical" :: "flex" :: extra,
      [⟨"flexural stress", 60, some 0.6, "MPa"⟩, ⟨"flexural strain", strain, some (strain / 100), ""⟩, ⟨"flexural modulus", modulus, some (modulus / 100), "MPa"⟩,
       ⟨"deflection", d, none, "mm"⟩]⟩) := by
  have hs : 6 * d * thickness / (span * span) = 3 * d / 512 := by unfold thickness span; grind
  have hst : 3 * appliedForce * span / (2 * thickness * thickness * width) = 60 := by unfold appliedForce thickness span width; grind
  by_cases h : d = 0
  · left
    subst h
    refine ⟨rfl, ?_⟩
    simp only [flexural, hs]
    rw [if_pos (by grind)]
  · right
    have hne : 3 * d / 512 ≠ 0 := by grind
    refine ⟨h, 3 * d / 512, 60 / (3 * d / 512), by grind, by grind, ?_⟩
    simp only [flexural, hs, hst, if_neg hne, List.cons_append, List.nil_append, Except.ok.injEq, Flexural.mk.injEq, List.cons.injEq, Measured.mk.injEq, Option.some.injEq, true_and,
      and_true]
    refine ⟨by grind, by grind, by grind⟩

/-- C79: as many measurements as asked for, in order, each of its own draws; unless a deflection that is drawn is 0. -/
theorem C79_all (extra : List String) (l : List (String × Rat)) :
    ((∀ p ∈ l, p.2 ≠ 0) → ∃ ms, flexurals extra l = .ok ms ∧ l.map (fun p => flexural p.1 p.2 extra) = ms.map .ok) ∧
    ((∃ p ∈ l, p.2 = 0) → flexurals extra l = .error .raised) := by
  induction l with
  | nil => exact ⟨fun _ => ⟨[], rfl, rfl⟩, by simp⟩
  | cons p l ih =>
    obtain ⟨id, d⟩ := p
    rcases C79_flexural id d extra with ⟨h0, h⟩ | ⟨h0, st, mo, -, -, h⟩
    · refine ⟨fun hp => absurd h0 (hp _ List.mem_cons_self), fun _ => ?_⟩
      rw [flexurals, h]
    · refine ⟨fun hp => ?_, ?_⟩
      · obtain ⟨ms, h1, h2⟩ := ih.1 fun q hq => hp q (List.mem_cons_of_mem _ hq)
        exact ⟨_ :: ms, by rw [flexurals, h, h1], by rw [List.map_cons, List.map_cons, h2, h]⟩
      · rintro ⟨q, hq, hz⟩
        rcases List.mem_cons.1 hq with rfl | hq
        · exact absurd hz h0
        · rw [flexurals, h, ih.2 ⟨q, hq, hz⟩]

/-- C79: that measurements can be made of whatever `random.random()` gives is false: it may give 0. -/
theorem C79_counterexample : ∃ l : List (String × Rat), (∀ p ∈ l, 0 ≤ p.2 ∧ p.2 < 1) ∧ flexurals [] l = .error .raised :=
  ⟨[("abcdefgh", 0)], by simp; decide, (C79_all [] _).2 ⟨_, List.mem_singleton.2 rfl, rfl⟩⟩

example : ((match flexurals ["x"] [("abcdefgh", 1 / 2), ("ijklmnop", 1 / 4)] with | .ok ms => ms | .error _ => []).map fun (m : Flexural) => (m.uid, m.properties.map Measured.value)) =
    [("abcdefgh", [60, 3 / 1024, 20480, 1 / 2]), ("ijklmnop", [60, 3 / 2048, 40960, 1 / 4])] := by decide +kernel

/-! ### Examples -/

/-- the draws may be fair, and a walk exists -/
def someDraws : Draws := ⟨fun _ => 1 / 2, fun _ _ => 0⟩

theorem someDraws_fair : someDraws.Fair := fun _ => ⟨by simp only [someDraws]; decide +kernel, fun _ h => h⟩

/-- what is pushed on the queue in the recipe -/
def someKids : Item → List Item
  | .material i => [.process i]
  | .process i => .material i :: ((List.range 18).filter fun j => recipe.ingredients[j]?.map (·.process) = some i).map .ingredient
  | .ingredient j => match recipe.ingredients[j]? with
    | some a => [.material a.material, .process a.process]
    | none => []

theorem someKids_next (x y : Item) : y ∈ someKids x ↔ Next recipe x y := by
  constructor
  · intro h
    cases x with
    | material i =>
      simp only [someKids, List.mem_singleton] at h
      exact h ▸ .process i
    | process i =>
      simp only [someKids, List.mem_cons, List.mem_map, List.mem_filter, decide_eq_true_eq] at h
      rcases h with rfl | ⟨j, ⟨-, hj⟩, rfl⟩
      · exact .output i
      · cases ha : recipe.ingredients[j]? with
        | none => simp [ha] at hj
        | some a =>
          rw [ha] at hj
          simp only [Option.map_some, Option.some.injEq] at hj
          exact hj ▸ .ingredient ha
    | ingredient j =>
      simp only [someKids] at h
      cases ha : recipe.ingredients[j]? with
      | none => simp [ha] at h
      | some a =>
        simp only [ha, List.mem_cons, List.not_mem_nil, or_false] at h
        rcases h with rfl | rfl
        · exact .material ha
        · exact .used ha
  · intro h
    cases h with
    | process => simp [someKids]
    | output => simp [someKids]
    | ingredient ha =>
      simp only [someKids, List.mem_cons, List.mem_map, List.mem_filter, decide_eq_true_eq]
      exact .inr ⟨_, ⟨List.mem_range.2 (lengths.2 ▸ (List.getElem?_eq_some_iff.1 ha).1), by rw [ha]; rfl⟩, rfl⟩
    | used ha => simp [someKids, ha]
    | material ha => simp [someKids, ha]

/-- the cake is made, and its sugar is powdered -/
example : ∃ n s, makeRuns recipe "0123456789abcdef0123456789abcdef" someDraws someKids n = some (.ok s) ∧ Made recipe "0123456789abcdef0123456789abcdef" s := by
  obtain ⟨n, s, h1, h2⟩ := C78_runs recipe C78_whole "0123456789abcdef0123456789abcdef" someDraws someDraws_fair someKids someKids_next
  exact ⟨n, s, h2 n (Nat.le_refl _), h1⟩

def someRuns : St := match makeRuns recipe "k" someDraws someKids 200 with
  | some (.ok s) => s
  | _ => ⟨fun _ => { name := "" }, 0⟩

example : (someRuns.run (.material 10)).name = "Fresh Farm Butter" ∧ (someRuns.run (.process 10)).name = "Procuring Fresh Farm Butter" ∧
    (someRuns.run (.process 4)).source = some ("gwash", "2015-03-14") ∧ (someRuns.run (.ingredient 0)).quantities.absolute = some ⟨0.751, 0.03755, "kg"⟩ := by decide +kernel

example : measured recipe someRuns 20 = some (measurements 1 2 6 8 15) := by decide +kernel

end Verif.Cake
