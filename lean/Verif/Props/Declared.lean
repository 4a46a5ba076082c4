import Verif.Props.StrSets
import Verif.Props.Strings
/-!
# C68: which arguments constructors and setters accept, and what they store

The specification: `Number`, `Items`, `Stores` (what is stored for what is given) and the table `Doc` (which attribute is of which kind), written from the type
annotations and docstrings, do not use the functions of Model/Schema.lean.
-/

set_option linter.unusedSimpArgs false
set_option linter.unusedVariables false
set_option linter.unusedSectionVars false

namespace Verif.Declared
open Verif.Py Verif.Value Verif.Schema Verif.Json

/-! ## The specification -/

/-- a Python number and what it is worth -/
inductive Number : V → Rat → Prop
  | no : Number (.bool false) 0
  | yes : Number (.bool true) 1
  | int (i : Int) : Number (.int i) i
  | float (q : Rat) : Number (.float q) q

/-- numbers and their sum -/
inductive Sum : List V → Rat → Prop
  | nil : Sum [] 0
  | cons {v : V} {vs : List V} {q r : Rat} : Number v q → Sum vs r → Sum (v :: vs) (q + r)

/-- what can be given for a list, and the list: None, any iterable but a string, or a single member -/
inductive Items : V → List V → Prop
  | none : Items .none []
  | list (l : List V) : Items (.list l) l
  | tuple (l : List V) : Items (.tuple l) l
  | keys (ks vs : List V) : Items (.dict ks vs) ks
  | one (v : V) : v ≠ .none → (∀ l, v ≠ .list l) → (∀ l, v ≠ .tuple l) → (∀ ks vs, v ≠ .dict ks vs) → Items v [v]

/-- an object of one of the classes, given by their `typ` -/
inductive Of (ts : List String) : V → Prop
  | obj (t : String) (ns : List String) (vs : List V) : t ∈ ts → Of ts (.obj t ns vs)

/-- an entity of one of the classes -/
inductive Entity (m : Mem) (cs : List ECls) : V → Prop
  | ref (o : Nat) (x : EObj) : m[o]? = some x → x.cls ∈ cs → Entity m cs (.ref o)

/-- an entity of one of the classes, or a link -/
inductive Pointer (m : Mem) (cs : List ECls) : V → Prop
  | entity (v : V) : Entity m cs v → Pointer m cs v
  | link (s i : String) : Pointer m cs (.link s i)

/-- the chemical elements, and the two isotopes of hydrogen that have names -/
def periodicTable : List String :=
  ["Ac", "Ag", "Al", "Am", "Ar", "As", "At", "Au", "B", "Ba", "Be", "Bh", "Bi", "Bk", "Br", "C", "Ca", "Cd", "Ce", "Cf", "Cl", "Cm", "Cn", "Co", "Cr", "Cs", "Cu", "D",
   "Db", "Ds", "Dy", "Er", "Es", "Eu", "F", "Fe", "Fl", "Fm", "Fr", "Ga", "Gd", "Ge", "H", "He", "Hf", "Hg", "Ho", "Hs", "I", "In", "Ir", "K", "Kr", "La", "Li", "Lr",
   "Lu", "Lv", "Mc", "Md", "Mg", "Mn", "Mo", "Mt", "N", "Na", "Nb", "Nd", "Ne", "Nh", "Ni", "No", "Np", "O", "Og", "Os", "P", "Pa", "Pb", "Pd", "Pm", "Po", "Pr", "Pt",
   "Pu", "Ra", "Rb", "Re", "Rf", "Rg", "Rh", "Rn", "Ru", "S", "Sb", "Sc", "Se", "Sg", "Si", "Sm", "Sn", "Sr", "T", "Ta", "Tb", "Tc", "Te", "Th", "Ti", "Tl", "Tm", "Ts",
   "U", "V", "W", "Xe", "Y", "Yb", "Zn", "Zr"]

/-- a template with bounds that do not go beyond the template's own -/
def Within (env : Env) (m : Mem) (a b : V) : Prop :=
  ∀ o, a = .ref o → Of boundsTypes b → ∃ x bt, m[o]? = some x ∧ Dict.get? x.fields "_bounds" = some bt ∧ env.contains bt b = true

/-- a member of a list of templates, and the pair that is stored for it -/
inductive Range (env : Env) (m : Mem) (c : ECls) : V → V → Prop
  | alone (v : V) : Pointer m [c] v → Range env m c v (.list [v, .none])
  | list (a b : V) : Pointer m [.propertyTemplate, .conditionTemplate, .parameterTemplate] a → b = .none ∨ Of boundsTypes b → Within env m a b →
      Range env m c (.list [a, b]) (.list [a, b])
  | tuple (a b : V) : Pointer m [.propertyTemplate, .conditionTemplate, .parameterTemplate] a → b = .none ∨ Of boundsTypes b → Within env m a b →
      Range env m c (.tuple [a, b]) (.list [a, b])

/-- member by member -/
inductive Each (R : V → V → Prop) : List V → List V → Prop
  | nil : Each R [] []
  | cons {v w : V} {vs ws : List V} : R v w → Each R vs ws → Each R (v :: vs) (w :: ws)

/-- `Stores env m k v w`: for an attribute of kind `k` the value `v` is acceptable, and `w` is what is stored. -/
inductive Stores (env : Env) (m : Mem) : Kind → V → V → Prop
  | raw (v : V) : Stores env m .raw v v
  | str (s : String) : Stores env m .str (.str s) (.str s)
  | strName (s : String) : Stores env m .strName (.str s) (.str s)
  | noStr : Stores env m .optStr .none .none
  | optStr (s : String) : Stores env m .optStr (.str s) (.str s)
  | noFormula : Stores env m .formula .none .none
  | formula (s : String) : (∀ tok, Strings.IsToken s.toList tok → String.ofList tok ∈ periodicTable) → Stores env m .formula (.str s) (.str s)
  | noInchi : Stores env m .inchi .none .none
  | inchi (s : String) : Stores env m .inchi (.str s) (.str (String.ofList (Strings.stored s.toList)))
  | units (s u : String) : env.parseUnits s = .ok u → Stores env m .units (.str s) (.str u)
  | nominal (v : V) (q : Rat) : Number v q → Stores env m .nominal v (.float q)
  | bound (v : V) (q : Rat) : Number v q → Stores env m .bound v (.float q)
  | intLike (v : V) (i : Int) : Number v i → Stores env m .intLike v (.int i)
  | intBound (v : V) (i : Int) : Number v i → Stores env m .intBound v (.int i)
  | noSet : Stores env m .strSet .none (.list [])
  | set (v : V) (l : List String) (s : List String) : v = .list (l.map .str) ∨ v = .tuple (l.map .str) → s.Pairwise (· < ·) → (∀ x, x ∈ s ↔ x ∈ l) →
      Stores env m .strSet v (.list (s.map .str))
  | noProbabilities : Stores env m .probabilities .none .none
  | certain (s : String) : Stores env m .probabilities (.str s) (.dict [.str s] [.float 1])
  | probabilities (ks vs : List V) (q : Rat) : (∀ k ∈ ks, ∃ s, k = .str s) → Sum vs q → q - 1 ≤ 1 / 1000000000 → 1 - q ≤ 1 / 1000000000 →
      Stores env m .probabilities (.dict ks vs) (.dict ks vs)
  | noQuantities (v : V) : v = .none ∨ v = .list [] → Stores env m .quantities v (.dict [] [])
  | quantities (ks vs : List V) : Stores env m .quantities (.dict ks vs) (.dict ks vs)
  | enum (ms : List String) (s : String) : env.text s ∈ ms → Stores env m (.enum ms) (.str s) (.str (env.text s))
  | obj (ts : List String) (e : PyErr) (v : V) : Of ts v → Stores env m (.obj ts e) v v
  | noObj (ts : List String) : Stores env m (.optObj ts) .none .none
  | optObj (ts : List String) (v : V) : Of ts v → Stores env m (.optObj ts) v v
  | objList (ts : List String) (v : V) (l : List V) : Items v l → (∀ w ∈ l, Of ts w) → Stores env m (.objList ts) v (.list l)
  | strList (v : V) (l : List V) : Items v l → (∀ w ∈ l, ∃ s, w = .str s) → Stores env m .strList v (.list l)
  | noTarget (cs : List ECls) : Stores env m (.target cs) .none .none
  | target (cs : List ECls) (v : V) : Pointer m cs v → Stores env m (.target cs) v v
  | ranges (c : ECls) (v : V) (l l' : List V) : Items v l → (∀ w ∈ l, ¬ Of boundsTypes w) → Each (Range env m c) l l' → Stores env m (.ranges c) v (.list l')
  | range (c : ECls) (v : V) (l : List V) (p : V) : Items v l → (∃ w ∈ l, Of boundsTypes w) → Range env m c v p → Stores env m (.ranges c) v (.list [p])

/-! ## The setters do that -/

section
variable {env : Env} {m : Mem}

theorem number_iff {v : V} {q : Rat} : num v = some q ↔ Number v q := by
  constructor
  · intro h
    cases v <;> simp [num] at h
    · rename_i b
      subst h
      cases b
      · exact .no
      · exact .yes
    · subst h; exact .int _
    · subst h; exact .float _
  · intro h
    cases h <;> simp [num]

theorem number_none {v : V} : num v = none ↔ ∀ q, ¬ Number v q := by
  constructor
  · intro h q hq
    rw [number_iff.2 hq] at h
    cases h
  · intro h
    cases e : num v with
    | none => rfl
    | some q => exact absurd (number_iff.1 e) (h q)

theorem sum_iff {l : List V} {q : Rat} : total l = some q ↔ Sum l q := by
  induction l generalizing q with
  | nil => exact ⟨fun h => by simp [total] at h; subst h; exact .nil, fun h => by cases h; rfl⟩
  | cons v vs ih =>
    simp only [total]
    constructor
    · intro h
      split at h
      · rename_i a b ha hb
        cases h
        exact .cons (number_iff.1 ha) (ih.1 hb)
      · cases h
    · intro h
      cases h with
      | cons h1 h2 => simp [number_iff.2 h1, ih.2 h2]

theorem items_iff {v : V} {l : List V} : members v = l ↔ Items v l := by
  constructor
  · rintro rfl
    cases v <;> simp only [members] <;> first | exact .none | exact .list _ | exact .tuple _ | exact .keys _ _ | exact .one _ (by simp) (by simp) (by simp) (by simp)
  · intro h
    cases h with
    | one _ h1 h2 h3 h4 =>
      cases v <;> simp [members]
      · exact absurd rfl h1
      · exact absurd rfl (h2 _)
      · exact absurd rfl (h3 _)
      · exact absurd rfl (h4 _ _)
    | _ => rfl

theorem items_members (v : V) : Items v (members v) := items_iff.1 rfl

theorem of_iff {ts : List String} {v : V} : isTyp ts v = true ↔ Of ts v := by
  constructor
  · intro h
    cases v <;> simp [isTyp] at h
    exact .obj _ _ _ h
  · rintro ⟨t, ns, vs, h⟩
    simpa [isTyp] using h

theorem entity_iff {cs : List ECls} {v : V} : isCls m cs v = true ↔ Entity m cs v := by
  constructor
  · intro h
    unfold isCls at h
    split at h
    · split at h
      · exact .ref _ _ (by assumption) (by simpa using h)
      · cases h
    · cases h
  · rintro ⟨o, x, hx, hc⟩
    simp [isCls, hx, hc]

theorem pointer_iff {cs : List ECls} {v : V} : (isLink v || isCls m cs v) = true ↔ Pointer m cs v := by
  rw [Bool.or_eq_true, entity_iff]
  constructor
  · rintro (h | h)
    · cases v <;> simp [isLink] at h
      exact .link _ _
    · exact .entity _ h
  · intro h
    cases h with
    | entity _ h => exact .inr h
    | link => exact .inl rfl

theorem isStr_iff {v : V} : isStr v = true ↔ ∃ s, v = .str s := by
  cases v <;> simp [isStr]

theorem strings_iff {l : List V} {ss : List String} : strings l = some ss ↔ l = ss.map .str := by
  induction l generalizing ss with
  | nil => cases ss <;> simp [strings]
  | cons v vs ih =>
    cases ss with
    | nil => cases v <;> simp [strings]
    | cons s ss =>
      cases v <;> simp [strings]
      rw [and_comm]
      simp [ih]

theorem mem_sorted (l : List String) (x : String) : x ∈ l.foldr insertStr [] ↔ x ∈ l := by
  induction l with
  | nil => simp
  | cons a as ih =>
    have key : ∀ (s : String) (t : List String), x ∈ insertStr s t ↔ x = s ∨ x ∈ t := by
      intro s t
      induction t with
      | nil => simp [insertStr]
      | cons b bs ihb =>
        simp only [insertStr]
        split
        · rename_i e; subst e; simp
        · split
          · simp
          · simp [ihb]; grind
    simp [key, ih]

/-- a set has one sorted list of its members -/
theorem strict_unique {l l' : List String} (h : l.Pairwise (· < ·)) (h' : l'.Pairwise (· < ·)) (e : ∀ x, x ∈ l ↔ x ∈ l') : l = l' := by
  induction l generalizing l' with
  | nil =>
    cases l' with
    | nil => rfl
    | cons b bs => exact absurd ((e b).2 (by simp)) (by simp)
  | cons a as ih =>
    cases l' with
    | nil => exact absurd ((e a).1 (by simp)) (by simp)
    | cons b bs =>
      rw [List.pairwise_cons] at h h'
      have hab : a = b := by
        rcases List.mem_cons.1 ((e a).1 (by simp)) with h1 | h1
        · exact h1
        · rcases List.mem_cons.1 ((e b).2 (by simp)) with h2 | h2
          · exact h2.symm
          · exact absurd (String.lt_trans (h.1 b h2) (h'.1 a h1)) (String.lt_irrefl _)
      subst hab
      rw [ih h.2 h'.2 fun x => ?_]
      constructor
      · intro hx
        rcases List.mem_cons.1 ((e x).1 (by simp [hx])) with rfl | h1
        · exact absurd (h.1 _ hx) (String.lt_irrefl _)
        · exact h1
      · intro hx
        rcases List.mem_cons.1 ((e x).2 (by simp [hx])) with rfl | h1
        · exact absurd (h'.1 _ hx) (String.lt_irrefl _)
        · exact h1

theorem elements_table (s : String) : s.toList ∈ Strings.allElements.map String.toList ↔ s ∈ periodicTable := by
  have h1 : ∀ s ∈ Strings.allElements, s ∈ periodicTable := by decide +kernel
  have h2 : ∀ s ∈ periodicTable, s ∈ Strings.allElements := by decide +kernel
  constructor
  · intro h
    obtain ⟨t, ht, e⟩ := List.mem_map.1 h
    rw [← String.toList_inj.1 e]
    exact h1 t ht
  · intro h
    exact List.mem_map.2 ⟨s, h2 s h, rfl⟩

theorem pair_iff {a b w : V} : homogenizePair env m [a, b] = .ok w ↔ Pointer m [.propertyTemplate, .conditionTemplate, .parameterTemplate] a ∧
    (b = .none ∨ Of boundsTypes b) ∧ Within env m a b ∧ w = .list [a, b] := by
  have hw : Pointer m [.propertyTemplate, .conditionTemplate, .parameterTemplate] a → Of boundsTypes b → (allows env m a b = true ↔ Within env m a b) := by
    intro hp hb
    constructor
    · rintro h o rfl _
      cases hp with
      | entity _ he =>
        obtain ⟨_, x, hx, _⟩ := he
        simp only [allows, hx] at h
        split at h
        · exact ⟨x, _, hx, by assumption, h⟩
        · cases h
    · intro h
      cases hp with
      | entity _ he =>
        obtain ⟨o, x, hx, _⟩ := he
        obtain ⟨y, bt, hy, h1, h2⟩ := h o rfl hb
        simp [allows, hy, h1, h2]
      | link s i => rfl
  simp only [homogenizePair]
  constructor
  · intro h
    split at h
    · rename_i hc
      rw [Bool.and_eq_true] at hc
      have hp := pointer_iff.1 hc.1
      have hb : b = .none ∨ Of boundsTypes b := by
        rcases Bool.or_eq_true _ _ ▸ hc.2 with h | h
        · exact .inr (of_iff.1 h)
        · exact .inl (by simpa using h)
      split at h
      · cases h
      · rename_i ha
        cases h
        refine ⟨hp, hb, ?_, rfl⟩
        intro o ho hob
        have : allows env m a b = true := by
          simp only [of_iff.2 hob, Bool.true_and, Bool.not_eq_true', Bool.not_eq_false] at ha
          exact ha
        exact (hw hp hob).1 this o ho hob
    · cases h
  · rintro ⟨hp, hb, hin, rfl⟩
    rw [if_pos, if_neg]
    · intro h
      rw [Bool.and_eq_true] at h
      have := (hw hp (of_iff.1 h.1)).2 hin
      simp [this] at h
    · rw [Bool.and_eq_true]
      refine ⟨pointer_iff.2 hp, ?_⟩
      rcases hb with rfl | hb
      · simp
      · simp [of_iff.2 hb]

theorem pointer_not {cs : List ECls} {v : V} (h : Pointer m cs v) : (∀ l, v ≠ .list l) ∧ ∀ l, v ≠ .tuple l := by
  cases h with
  | entity _ h => obtain ⟨o, x, _, _⟩ := h; simp
  | link => simp

theorem range_iff {c : ECls} {v w : V} : homogenize env m c v = .ok w ↔ Range env m c v w := by
  have pairs : ∀ (l : List V), homogenizePair env m l = .ok w → ∃ a b, l = [a, b] := by
    intro l h
    match l, h with
    | [a, b], _ => exact ⟨a, b, rfl⟩
    | [], h => simp [homogenizePair] at h
    | [_], h => simp [homogenizePair] at h
    | _ :: _ :: _ :: _, h => simp [homogenizePair] at h
  constructor
  · intro h
    unfold homogenize at h
    split at h
    · obtain ⟨a, b, rfl⟩ := pairs _ h
      obtain ⟨h1, h2, h3, rfl⟩ := pair_iff.1 h
      exact .list a b h1 h2 h3
    · obtain ⟨a, b, rfl⟩ := pairs _ h
      obtain ⟨h1, h2, h3, rfl⟩ := pair_iff.1 h
      exact .tuple a b h1 h2 h3
    · split at h
      · cases h
        exact .alone _ (pointer_iff.1 (by assumption))
      · cases h
  · intro h
    cases h with
    | alone _ hp =>
      have := pointer_iff.2 hp
      obtain ⟨h1, h2⟩ := pointer_not hp
      unfold homogenize
      split
      · exact absurd rfl (h1 _)
      · exact absurd rfl (h2 _)
      · rw [if_pos this]
    | list a b h1 h2 h3 => exact pair_iff.2 ⟨h1, h2, h3, rfl⟩
    | tuple a b h1 h2 h3 => exact pair_iff.2 ⟨h1, h2, h3, rfl⟩

theorem mapE_iff {f : V → Except PyErr V} {R : V → V → Prop} (hf : ∀ v w, f v = .ok w ↔ R v w) {l l' : List V} :
    mapE f l = .ok l' ↔ Each R l l' := by
  induction l generalizing l' with
  | nil => exact ⟨fun h => by simp [mapE] at h; subst h; exact .nil, fun h => by cases h; rfl⟩
  | cons v vs ih =>
    simp only [mapE]
    constructor
    · intro h
      split at h
      · cases h
      · rename_i w hw
        split at h
        · cases h
        · cases h
          exact .cons ((hf _ _).1 hw) (ih.1 (by assumption))
    · intro h
      cases h with
      | cons h1 h2 => simp [(hf _ _).2 h1, ih.2 h2]

/-- C68: a setter stores exactly what the specification says, and accepts exactly what the specification accepts. -/
theorem C68_setter {k : Kind} {v w : V} : conv env m k v = .ok w ↔ Stores env m k v w := by
  cases k with
  | raw => exact ⟨fun h => by simp only [conv] at h; cases h; exact .raw _, fun h => by cases h; rfl⟩
  | str =>
    simp only [conv]
    refine ⟨fun h => ?_, fun h => by cases h; rfl⟩
    cases v <;> simp [convStr] at h
    subst h; exact .str _
  | strName =>
    simp only [conv]
    refine ⟨fun h => ?_, fun h => by cases h; rfl⟩
    cases v <;> simp [convStr] at h
    subst h; exact .strName _
  | optStr =>
    simp only [conv]
    refine ⟨fun h => ?_, fun h => by cases h <;> rfl⟩
    cases v <;> simp [convOptStr] at h
    · subst h; exact .noStr
    · subst h; exact .optStr _
  | formula =>
    simp only [conv]
    have key : ∀ s : String, (∀ tok, Strings.IsToken s.toList tok → tok ∈ Strings.allElements.map String.toList) ↔
        ∀ tok, Strings.IsToken s.toList tok → String.ofList tok ∈ periodicTable := by
      intro s
      refine forall_congr' fun tok => ?_
      rw [← elements_table (String.ofList tok)]
      simp
    constructor
    · intro h
      cases v <;> simp only [convFormula] at h <;> try cases h
      · exact .noFormula
      · rename_i s
        by_cases ht : ∀ tok, Strings.IsToken s.toList tok → tok ∈ Strings.allElements.map String.toList
        · rw [(Strings.C19_accept_iff _ none s.toList).1 ht] at h
          cases h
          exact .formula s ((key s).1 ht)
        · rw [(Strings.C19_accept_iff _ none s.toList).2.1 ht] at h
          cases h
    · intro h
      cases h with
      | noFormula => rfl
      | formula s ht => simp only [convFormula]; rw [(Strings.C19_accept_iff _ none s.toList).1 ((key s).2 ht)]
  | inchi =>
    simp only [conv]
    refine ⟨fun h => ?_, fun h => by cases h <;> rfl⟩
    cases v <;> simp [convInchi, Strings.setInchi_str] at h
    · subst h; exact .noInchi
    · subst h; exact .inchi _
  | units =>
    simp only [conv]
    constructor
    · intro h
      cases v <;> simp only [convUnits] at h <;> try cases h
      split at h
      · cases h; exact .units _ _ (by assumption)
      · cases h
    · intro h
      cases h with
      | units s u hu => simp [convUnits, hu]
  | nominal =>
    simp only [conv, convNominal]
    constructor
    · intro h
      split at h
      · cases h; exact .nominal _ _ (number_iff.1 (by assumption))
      · cases h
    · intro h
      cases h with
      | nominal _ q hq => rw [number_iff.2 hq]
  | bound =>
    simp only [conv, convBound]
    constructor
    · intro h
      split at h
      · cases h; exact .bound _ _ (number_iff.1 (by assumption))
      · split at h <;> cases h
    · intro h
      cases h with
      | bound _ q hq => rw [number_iff.2 hq]
  | intLike =>
    simp only [conv, convIntLike]
    constructor
    · intro h
      split at h
      · rename_i q hq
        split at h
        · rename_i hd
          cases h
          refine .intLike _ _ (number_iff.1 ?_)
          rw [hq]
          exact congrArg some (Rat.ext (by simp) (by simp [hd]))
        · cases h
      · cases h
    · intro h
      cases h with
      | intLike _ i hq => rw [number_iff.2 hq]; simp
  | intBound =>
    simp only [conv, convIntBound]
    constructor
    · intro h
      split at h
      · rename_i q hq
        split at h
        · rename_i hd
          cases h
          refine .intBound _ _ (number_iff.1 ?_)
          rw [hq]
          exact congrArg some (Rat.ext (by simp) (by simp [hd]))
        · cases h
      · split at h <;> cases h
    · intro h
      cases h with
      | intBound _ i hq => rw [number_iff.2 hq]; simp
  | strSet =>
    simp only [conv]
    constructor
    · intro h
      cases v <;> simp only [convStrSet] at h <;> try cases h
      · exact .noSet
      all_goals
        split at h
        · rename_i ss hss
          cases h
          have := strings_iff.1 hss
          refine .set _ ss _ ?_ (sorted_strict ss) (mem_sorted ss)
          simp [this]
        · split at h <;> cases h
    · intro h
      cases h with
      | noSet => rfl
      | set _ l s hv hs hm =>
        have e : l.foldr insertStr [] = s := strict_unique (sorted_strict l) hs fun x => by rw [mem_sorted, hm]
        rcases hv with rfl | rfl <;> simp only [convStrSet, strings_iff.2 rfl, e]
  | probabilities =>
    simp only [conv]
    have key : ∀ q : Rat, ¬ (1 : Rat) / 1000000000 < fromOne q ↔ q - 1 ≤ 1 / 1000000000 ∧ 1 - q ≤ 1 / 1000000000 := by
      intro q
      unfold fromOne
      split <;> grind
    constructor
    · intro h
      cases v <;> simp only [convProbabilities] at h <;> try cases h
      · exact .noProbabilities
      · exact .certain _
      · split at h
        · rename_i q hq
          split at h
          · cases h
          · rename_i hb
            split at h
            · rename_i hk
              cases h
              obtain ⟨h1, h2⟩ := (key q).1 hb
              exact .probabilities _ _ q (fun k hk' => isStr_iff.1 (List.all_eq_true.1 hk k hk')) (sum_iff.1 hq) h1 h2
            · cases h
        · cases h
    · intro h
      cases h with
      | noProbabilities => rfl
      | certain s => rfl
      | probabilities ks vs q hk hs h1 h2 =>
        simp only [convProbabilities, sum_iff.2 hs]
        rw [if_neg ((key q).2 ⟨h1, h2⟩), if_pos (List.all_eq_true.2 fun k hk' => isStr_iff.2 (hk k hk'))]
  | quantities =>
    simp only [conv]
    constructor
    · intro h
      unfold convQuantities at h
      split at h <;> cases h
      · exact .noQuantities _ (.inl rfl)
      · exact .quantities _ _
      · exact .noQuantities _ (.inr rfl)
    · intro h
      cases h with
      | noQuantities _ h => rcases h with rfl | rfl <;> rfl
      | quantities => rfl
  | enum ms =>
    simp only [conv]
    constructor
    · intro h
      cases v <;> simp only [convEnum] at h <;> try cases h
      rename_i s
      split at h
      · rename_i x hx
        cases h
        have h1 := List.mem_of_find?_eq_some hx
        have h2 : env.text s = x := by simpa using List.find?_some hx
        rw [← h2] at h1 ⊢
        exact .enum ms s h1
      · cases h
    · intro h
      cases h with
      | enum _ s hs =>
        simp only [convEnum]
        cases hf : ms.find? (fun x => decide (env.text s = x)) with
        | none => have := List.find?_eq_none.1 hf _ hs; simp at this
        | some x => have := List.find?_some hf; simp at this; simp [this]
  | obj ts e =>
    simp only [conv, convObj]
    constructor
    · intro h
      split at h
      · cases h
      · split at h
        · cases h; exact .obj _ _ _ (of_iff.1 (by assumption))
        · cases h
    · intro h
      cases h with
      | obj _ _ _ ho =>
        rw [if_neg (by rcases ho with ⟨t, ns, vs, _⟩; simp), if_pos (of_iff.2 ho)]
  | optObj ts =>
    simp only [conv, convOptObj]
    constructor
    · intro h
      split at h
      · rename_i e; subst e; cases h; exact .noObj _
      · split at h
        · cases h; exact .optObj _ _ (of_iff.1 (by assumption))
        · cases h
    · intro h
      cases h with
      | noObj => rfl
      | optObj _ _ ho => rw [if_neg (by rcases ho with ⟨t, ns, vs, _⟩; simp), if_pos (of_iff.2 ho)]
  | objList ts =>
    simp only [conv, convList]
    constructor
    · intro h
      split at h
      · rename_i ha
        cases h
        exact .objList _ _ _ (items_members v) fun w hw => of_iff.1 (List.all_eq_true.1 ha w hw)
      · cases h
    · intro h
      cases h with
      | objList _ _ l hi ho => rw [items_iff.2 hi, if_pos (List.all_eq_true.2 fun w hw => of_iff.2 (ho w hw))]
  | strList =>
    simp only [conv, convList]
    constructor
    · intro h
      split at h
      · rename_i ha
        cases h
        exact .strList _ _ (items_members v) fun w hw => isStr_iff.1 (List.all_eq_true.1 ha w hw)
      · cases h
    · intro h
      cases h with
      | strList _ l hi ho => rw [items_iff.2 hi, if_pos (List.all_eq_true.2 fun w hw => isStr_iff.2 (ho w hw))]
  | target cs =>
    simp only [conv, convTarget]
    constructor
    · intro h
      split at h
      · rename_i ha
        cases h
        rcases ha with rfl | ha
        · exact .noTarget _
        · exact .target _ _ (pointer_iff.1 (by rw [Bool.or_eq_true]; exact ha))
      · cases h
    · intro h
      cases h with
      | noTarget => simp
      | target _ _ hp => rw [if_pos (.inr (by have := pointer_iff.2 hp; rwa [Bool.or_eq_true] at this))]
  | ranges c =>
    simp only [conv, convRanges]
    have key : ∀ l : List V, l.any (isTyp boundsTypes) = true ↔ ∃ w ∈ l, Of boundsTypes w := by
      intro l; rw [List.any_eq_true]; simp only [of_iff]
    constructor
    · intro h
      split at h
      · cases h
      · rename_i l hl
        cases h
        rw [mapE_iff (fun v w => range_iff)] at hl
        split at hl
        · rename_i ha
          cases hl with
          | cons h1 h2 =>
            cases h2
            exact .range _ _ _ _ (items_members v) ((key _).1 ha) h1
        · rename_i ha
          exact .ranges _ _ _ _ (items_members v) (fun w hw ho => ha ((key _).2 ⟨w, hw, ho⟩)) hl
    · intro h
      cases h with
      | ranges _ _ l l' hi hn hr =>
        rw [items_iff.2 hi, if_neg (fun ha => by obtain ⟨w, hw, ho⟩ := (key _).1 ha; exact hn w hw ho), (mapE_iff (fun v w => range_iff)).2 hr]
      | range _ _ l p hi hn hr =>
        rw [items_iff.2 hi, if_pos ((key _).2 hn), (mapE_iff (f := homogenize env m c) (fun v w => range_iff)).2 (.cons hr .nil)]

end

/-! ## The constructors of values, bounds, attributes, sources and file links -/

/-- a documented argument: its name, its default if it may be left out, what is accepted -/
structure Param where
  name : String
  dflt : Option V
  kind : Kind

/-- has to be given -/
def req (name : String) (kind : Kind) : Param := ⟨name, none, kind⟩
/-- may be left out -/
def opt (name : String) (kind : Kind) : Param := ⟨name, some .none, kind⟩

/-- a value (BaseValue) -/
def aValue : Kind := .optObj ["nominal_real", "uniform_real", "normal_real", "nominal_integer", "uniform_integer", "nominal_categorical", "discrete_categorical",
  "nominal_composition", "empirical_formula", "smiles", "inchi"]
/-- one of the documented origins -/
def anOrigin : Kind := .enum ["measured", "predicted", "summary", "specified", "computed", "unknown"]
/-- one of the documented sample types -/
def aSampleType : Kind := .enum ["experimental", "production", "virtual", "unknown"]
/-- file links -/
def fileLinks : Kind := .objList ["file_link"]

/-- the documented arguments of an attribute -/
def attributeDoc (t : ECls) : List Param :=
  [req "name" .raw, opt "value" aValue, opt "template" (.target [t]), ⟨"origin", some (.str "unknown"), anOrigin⟩, opt "notes" .raw, opt "file_links" fileLinks]

/-- The documented arguments of the classes that are not entities. -/
inductive Doc : String → List Param → Prop
  | property : Doc "property" (attributeDoc .propertyTemplate)
  | condition : Doc "condition" (attributeDoc .conditionTemplate)
  | parameter : Doc "parameter" (attributeDoc .parameterTemplate)
  | propertyAndConditions : Doc "property_and_conditions" [opt "property" (.obj ["property"] .typeError), opt "conditions" (.objList ["condition"])]
  | fileLink : Doc "file_link" [req "filename" .raw, req "url" .raw]
  | performedSource : Doc "performed_source" [opt "performed_by" .optStr, opt "performed_date" .optStr]
  | nominalReal : Doc "nominal_real" [opt "nominal" .nominal, opt "units" .units]
  | uniformReal : Doc "uniform_real" [opt "lower_bound" .raw, opt "upper_bound" .raw, opt "units" .units]
  | normalReal : Doc "normal_real" [opt "mean" .raw, opt "std" .raw, opt "units" .units]
  | nominalInteger : Doc "nominal_integer" [req "nominal" .intLike]
  | uniformInteger : Doc "uniform_integer" [req "lower_bound" .intLike, req "upper_bound" .intLike]
  | nominalCategorical : Doc "nominal_categorical" [opt "category" .optStr]
  | discreteCategorical : Doc "discrete_categorical" [opt "probabilities" .probabilities]
  | nominalComposition : Doc "nominal_composition" [opt "quantities" .quantities]
  | empiricalFormula : Doc "empirical_formula" [opt "formula" .formula]
  | smiles : Doc "smiles" [opt "smiles" .optStr]
  | inchi : Doc "inchi" [opt "inchi" .inchi]
  | realBounds : Doc "real_bounds" [req "lower_bound" .bound, req "upper_bound" .bound, req "default_units" .units]
  | integerBounds : Doc "integer_bounds" [req "lower_bound" .intBound, req "upper_bound" .intBound]
  | categoricalBounds : Doc "categorical_bounds" [opt "categories" .strSet]
  | compositionBounds : Doc "composition_bounds" [opt "components" .strSet]
  | molecularStructureBounds : Doc "molecular_structure_bounds" []

/-- the classes with a lower and an upper bound -/
def interval : List String := ["uniform_real", "uniform_integer", "real_bounds", "integer_bounds"]

/-- what is given for an argument: what the caller gave, else the default -/
inductive Given (kwargs : List (String × V)) (p : Param) : V → Prop
  | given (v : V) : Dict.get? kwargs p.name = some v → Given kwargs p v
  | dflt (v : V) : Dict.get? kwargs p.name = none → p.dflt = some v → Given kwargs p v

/-- Every documented argument is accepted, and `attr` has what is stored for each. -/
def Accepted (env : Env) (m : Mem) (ps : List Param) (kwargs : List (String × V)) (attr : String → Option V) : Prop :=
  ∀ p ∈ ps, ∃ v w, Given kwargs p v ∧ Stores env m p.kind v w ∧ attr p.name = some w

/-- the lower bound is not above the upper one -/
def InOrder (attr : String → Option V) : Prop :=
  ∃ v w a b, attr "lower_bound" = some v ∧ attr "upper_bound" = some w ∧ Number v a ∧ Number w b ∧ a ≤ b

section
variable {env : Env} {m : Mem}

/-- an argument of the model's table, as a documented one -/
def param (a : Arg) : Param := ⟨a.name, a.dflt, a.kind⟩

theorem given_iff {kwargs : List (String × V)} {a : Arg} {v : V} : given kwargs a = .ok v ↔ Given kwargs (param a) v := by
  unfold given
  constructor
  · intro h
    split at h
    · cases h; exact .given _ (by assumption)
    · split at h
      · cases h; exact .dflt _ (by assumption) (by assumption)
      · cases h
  · intro h
    cases h with
    | given h => simp only [param] at h; rw [h]
    | dflt h1 h2 => simp only [param] at h1 h2; rw [h1, h2]

/-- the arguments are bound and the setters run, one by one -/
theorem setAll_iff {kwargs : List (String × V)} {as : List Arg} {vals : List V} :
    (∃ bound, bindArgs kwargs as = .ok bound ∧ setAll env m bound = .ok vals) ↔
      vals.length = as.length ∧ ∀ p ∈ as.zip vals, ∃ v, Given kwargs (param p.1) v ∧ Stores env m p.1.kind v p.2 := by
  induction as generalizing vals with
  | nil =>
    constructor
    · rintro ⟨b, h1, h2⟩
      simp [bindArgs] at h1; subst h1; simp [setAll] at h2; subst h2; simp
    · rintro ⟨h, _⟩
      cases vals with
      | nil => exact ⟨[], rfl, rfl⟩
      | cons => simp at h
  | cons a as ih =>
    constructor
    · rintro ⟨b, h1, h2⟩
      simp only [bindArgs] at h1
      split at h1
      · cases h1
      · rename_i v hv
        split at h1
        · cases h1
        · rename_i vs hvs
          cases h1
          simp only [setAll] at h2
          split at h2
          · cases h2
          · rename_i w hw
            split at h2
            · cases h2
            · rename_i ws hws
              cases h2
              obtain ⟨e, hall⟩ := ih.1 ⟨vs, hvs, hws⟩
              refine ⟨by simp [e], ?_⟩
              intro p hp
              rcases List.mem_cons.1 hp with rfl | hp
              · exact ⟨v, given_iff.1 hv, C68_setter.1 hw⟩
              · exact hall p hp
    · rintro ⟨h, hall⟩
      cases vals with
      | nil => simp at h
      | cons w ws =>
        obtain ⟨v, hv, hw⟩ := hall (a, w) (by simp)
        obtain ⟨b, h1, h2⟩ := ih.2 ⟨by simpa using h, fun p hp => hall p (by simp [hp])⟩
        exact ⟨(a.kind, v) :: b, by simp [bindArgs, given_iff.2 hv, h1], by simp [setAll, C68_setter.2 hw, h2]⟩

/-- the attributes of an object -/
def attrOf : V → String → Option V
  | .obj _ ns vs, n => Dict.get? (ns.zip vs) n
  | _, _ => none

theorem get?_zip_iff {names : List String} (hn : names.Nodup) {vals : List V} (hl : vals.length = names.length) {n : String} {v : V} :
    Dict.get? (names.zip vals) n = some v ↔ (n, v) ∈ names.zip vals := by
  refine ⟨Dict.mem_of_get?, fun h => Dict.get?_of_mem ?_ h⟩
  unfold Dict.WF Dict.keys
  rwa [List.map_fst_zip (by omega)]

/-- position by position is name by name -/
theorem zip_iff {as : List Arg} (hn : (as.map Arg.name).Nodup) {vals : List V} (hl : vals.length = as.length) {R : Arg → V → Prop} :
    (∀ p ∈ as.zip vals, R p.1 p.2) ↔ ∀ a ∈ as, ∃ w, R a w ∧ Dict.get? ((as.map Arg.name).zip vals) a.name = some w := by
  induction as generalizing vals with
  | nil => simp
  | cons a as ih =>
    cases vals with
    | nil => simp at hl
    | cons v vs =>
      simp only [List.map_cons, List.nodup_cons] at hn
      have hl' : vs.length = as.length := by simpa using hl
      simp only [List.zip_cons_cons, List.mem_cons, forall_eq_or_imp, List.map_cons]
      rw [ih hn.2 hl']
      have hne : ∀ b ∈ as, ¬ a.name = b.name := fun b hb e => hn.1 (e ▸ List.mem_map.2 ⟨b, hb, rfl⟩)
      constructor
      · rintro ⟨h1, h2⟩
        refine ⟨⟨v, h1, by simp [Dict.get?]⟩, fun b hb => ?_⟩
        obtain ⟨w, hw, e⟩ := h2 b hb
        exact ⟨w, hw, by simp only [Dict.get?, if_neg (hne b hb)]; exact e⟩
      · rintro ⟨⟨w, h1, e⟩, h2⟩
        simp [Dict.get?] at e
        subst e
        refine ⟨h1, fun b hb => ?_⟩
        obtain ⟨w, hw, e⟩ := h2 b hb
        exact ⟨w, hw, by simp only [Dict.get?, if_neg (hne b hb)] at e; exact e⟩

/-- the model's table has the documented arguments -/
theorem table_doc {t : String} {ps : List Param} (h : Doc t ps) : ∃ c, Dict.get? table t = some c ∧ (∀ p, p ∈ ps ↔ p ∈ c.args.map param) ∧
    (c.args.map Arg.name).Nodup ∧ (c.ordered.isSome ↔ t ∈ interval) := by
  cases h <;> exact ⟨_, rfl, by simp [attributeDoc, attributeArgs, param, req, opt, aValue, valueTypes, anOrigin, origins, fileLinks]; try grind, by decide +kernel, by decide +kernel⟩

/-- every class of the model's table is documented -/
theorem doc_table {t : String} {c : Cls} (h : Dict.get? table t = some c) : ∃ ps, Doc t ps := by
  have := Dict.mem_of_get? h
  simp only [table, List.mem_cons, List.not_mem_nil, or_false, Prod.mk.injEq] at this
  rcases this with ⟨rfl, _⟩ | ⟨rfl, _⟩ | ⟨rfl, _⟩ | ⟨rfl, _⟩ | ⟨rfl, _⟩ | ⟨rfl, _⟩ | ⟨rfl, _⟩ | ⟨rfl, _⟩ | ⟨rfl, _⟩ | ⟨rfl, _⟩ | ⟨rfl, _⟩ | ⟨rfl, _⟩ | ⟨rfl, _⟩ | ⟨rfl, _⟩ | ⟨rfl, _⟩ |
    ⟨rfl, _⟩ | ⟨rfl, _⟩ | ⟨rfl, _⟩ | ⟨rfl, _⟩ | ⟨rfl, _⟩ | ⟨rfl, _⟩ | ⟨rfl, _⟩ <;> exact ⟨_, by constructor⟩

theorem checkOrder_iff {c : Cls} {fields : List (String × V)} :
    checkOrder c fields = .ok () ↔ (c.ordered.isSome → InOrder (Dict.get? fields)) := by
  unfold checkOrder
  cases c.ordered with
  | none => simp
  | some e =>
    simp only [inOrder, Option.isSome_some, true_imp_iff]
    constructor
    · intro h
      split at h
      · rename_i a b ha hb
        split at h
        · rename_i hab
          cases hv : Dict.get? fields "lower_bound" with
          | none => simp [hv] at ha
          | some v =>
            cases hw : Dict.get? fields "upper_bound" with
            | none => simp [hw] at hb
            | some w =>
              simp only [hv, hw, Option.bind_some] at ha hb
              exact ⟨v, w, a, b, hv, hw, number_iff.1 ha, number_iff.1 hb, hab⟩
        · cases h
      · cases h
    · rintro ⟨v, w, a, b, h1, h2, h3, h4, h5⟩
      simp [h1, h2, number_iff.2 h3, number_iff.2 h4, h5]

theorem construct_iff {t : String} {c : Cls} {kwargs : List (String × V)} {w : V} : construct env m t c kwargs = .ok w ↔
    ∃ vals, w = .obj t c.names vals ∧ (∃ bound, bindArgs kwargs c.args = .ok bound ∧ setAll env m bound = .ok vals) ∧
      (c.ordered.isSome → InOrder (Dict.get? (c.names.zip vals))) := by
  unfold construct
  constructor
  · intro h
    split at h
    · cases h
    · rename_i bound hb
      split at h
      · cases h
      · rename_i vals hv
        split at h
        · cases h
        · rename_i hc
          cases h
          exact ⟨vals, rfl, ⟨bound, hb, hv⟩, checkOrder_iff.1 hc⟩
  · rintro ⟨vals, rfl, ⟨bound, hb, hv⟩, hc⟩
    simp [hb, hv, checkOrder_iff.2 hc]

/-- C68: a constructor of a class that is not an entity succeeds exactly if every documented argument is given (or has a default) and acceptable, and the lower bound is not
above the upper one; the object then has the documented attributes and no others, with what is stored for what was given. -/
theorem C68_constructor {t : String} {ps : List Param} (h : Doc t ps) (kwargs : List (String × V)) (w : V) :
    (∃ c, Dict.get? table t = some c ∧ construct env m t c kwargs = .ok w) ↔
      ∃ ns vs, w = .obj t ns vs ∧ ns.Nodup ∧ ns.length = vs.length ∧ ns = ((Dict.get? table t).map Cls.names).getD [] ∧ (∀ n, n ∈ ns ↔ ∃ p ∈ ps, p.name = n) ∧
        Accepted env m ps kwargs (attrOf w) ∧ (t ∈ interval → InOrder (attrOf w)) := by
  obtain ⟨c, hc, hp, hn, ho⟩ := table_doc h
  have acc : ∀ (vals : List V), vals.length = c.args.length →
      ((∀ p ∈ c.args.zip vals, ∃ v, Given kwargs (param p.1) v ∧ Stores env m p.1.kind v p.2) ↔ Accepted env m ps kwargs (attrOf (.obj t c.names vals))) := by
    intro vals hl
    rw [zip_iff hn hl (R := fun a w => ∃ v, Given kwargs (param a) v ∧ Stores env m a.kind v w)]
    constructor
    · intro h p hpp
      obtain ⟨a, ha, rfl⟩ := List.mem_map.1 ((hp p).1 hpp)
      obtain ⟨w, ⟨v, h1, h2⟩, h3⟩ := h a ha
      exact ⟨v, w, h1, h2, h3⟩
    · intro h a ha
      obtain ⟨v, w, h1, h2, h3⟩ := h (param a) ((hp _).2 (List.mem_map.2 ⟨a, ha, rfl⟩))
      exact ⟨w, ⟨v, h1, h2⟩, h3⟩
  constructor
  · rintro ⟨c', hc', h⟩
    rw [hc] at hc'
    cases hc'
    obtain ⟨vals, rfl, hv, hord⟩ := construct_iff.1 h
    obtain ⟨hl, hall⟩ := setAll_iff.1 hv
    refine ⟨_, vals, rfl, hn, by simp [Cls.names, hl], by simp [hc], ?_, (acc vals hl).1 hall, fun ht => hord (ho.2 ht)⟩
    intro n
    simp only [Cls.names, List.mem_map]
    constructor
    · rintro ⟨a, ha, rfl⟩
      exact ⟨param a, (hp _).2 (List.mem_map.2 ⟨a, ha, rfl⟩), rfl⟩
    · rintro ⟨p, hpp, rfl⟩
      obtain ⟨a, ha, rfl⟩ := List.mem_map.1 ((hp p).1 hpp)
      exact ⟨a, ha, rfl⟩
  · rintro ⟨ns, vals, rfl, _, hl, hns, _, hacc, hord⟩
    rw [hc] at hns
    simp only [Option.map_some, Option.getD_some] at hns
    subst hns
    have hl' : vals.length = c.args.length := by simpa [Cls.names] using hl.symm
    exact ⟨c, hc, construct_iff.2 ⟨vals, rfl, setAll_iff.2 ⟨hl', (acc vals hl').2 hacc⟩, fun hs => hord (ho.1 hs)⟩⟩

/-! ## What is raised for values that are not acceptable -/

/-- what is raised for a member of a list of templates: ValueError for a list or tuple of other length than two, and for bounds that are not within those of the template;
else TypeError -/
inductive RangeError (env : Env) (m : Mem) : V → PyErr → Prop
  | length (l : List V) (v : V) : v = .list l ∨ v = .tuple l → l.length ≠ 2 → RangeError env m v .valueError
  | kinds (a b v : V) : v = .list [a, b] ∨ v = .tuple [a, b] → ¬ (Pointer m [.propertyTemplate, .conditionTemplate, .parameterTemplate] a ∧ (b = .none ∨ Of boundsTypes b)) →
      RangeError env m v .typeError
  | outside (a b v : V) : v = .list [a, b] ∨ v = .tuple [a, b] → ¬ Within env m a b → RangeError env m v .valueError
  | other (v : V) : (∀ l, v ≠ .list l ∧ v ≠ .tuple l) → RangeError env m v .typeError

/-- `Raises env m k v e`: if `v` is not acceptable for an attribute of kind `k`, the exception is `e`. -/
def Raises (env : Env) (m : Mem) : Kind → V → PyErr → Prop
  | .raw, _, _ => False
  | .str, _, e => e = .typeError
  | .strName, _, e => e = .valueError
  | .optStr, _, e => e = .typeError
  | .formula, v, e => (∃ s, v = .str s) ∧ e = .valueError ∨ (∀ s, v ≠ .str s) ∧ e = .typeError
  | .inchi, _, e => e = .typeError
  | .units, v, e => v = .none ∧ e = .valueError ∨ (∃ s, v = .str s ∧ env.parseUnits s = .error e) ∨ (v ≠ .none ∧ ∀ s, v ≠ .str s) ∧ e = .undefinedUnit
  | .nominal, _, e => e = .assertionError
  | .bound, v, e => v = .none ∧ e = .valueError ∨ v ≠ .none ∧ e = .typeError
  | .intLike, _, e => e = .typeError
  | .intBound, v, e => (v = .none ∨ ∃ q, Number v q) ∧ e = .valueError ∨ (v ≠ .none ∧ ∀ q, ¬ Number v q) ∧ e = .typeError
  | .strSet, v, e =>
    let unhashable := ∃ l w, (v = .list l ∨ v = .tuple l) ∧ w ∈ l ∧ ((∃ l', w = .list l') ∨ ∃ ks vs, w = .dict ks vs)
    unhashable ∧ e = .typeError ∨ ¬ unhashable ∧ e = .valueError
  | .probabilities, v, e =>
    let numbers := ∃ ks vs q, v = .dict ks vs ∧ Sum vs q ∧ (1 / 1000000000 < q - 1 ∨ 1 / 1000000000 < 1 - q)
    numbers ∧ e = .valueError ∨ ¬ numbers ∧ e = .typeError
  | .quantities, v, e => (∃ w l, v = .list (w :: l)) ∧ e = .other ∨ (∀ l, v ≠ .list l) ∧ e = .typeError
  | .enum _, v, e => (v = .none ∨ ∃ s, v = .str s) ∧ e = .valueError ∨ (v ≠ .none ∧ ∀ s, v ≠ .str s) ∧ e = .typeError
  | .obj _ e', v, e => v = .none ∧ e = e' ∨ v ≠ .none ∧ e = .typeError
  | .optObj _, _, e => e = .typeError
  | .objList _, _, e => e = .typeError
  | .strList, _, e => e = .typeError
  | .target _, _, e => e = .typeError
  | .ranges c, v, e => ∃ l before w after ws, Items v l ∧ before ++ w :: after = (if l.any (isTyp boundsTypes) then [v] else l) ∧ Each (Range env m c) before ws ∧ RangeError env m w e

theorem range_error {c : ECls} {v : V} {e : PyErr} (h : homogenize env m c v = .error e) : RangeError env m v e := by
  have key : ∀ l, v = .list l ∨ v = .tuple l → homogenizePair env m l = .error e → RangeError env m v e := by
    intro l hl h
    unfold homogenizePair at h
    split at h
    · rename_i a b
      split at h
      · split at h
        · rename_i hb
          cases h
          refine .outside a b v hl fun hw => ?_
          rw [Bool.and_eq_true, Bool.not_eq_true'] at hb
          have hn : allows env m a b = false := hb.2
          unfold allows at hn
          split at hn
          · obtain ⟨x, bt, h1, h2, h3⟩ := hw _ rfl (of_iff.1 hb.1)
            simp [h1, h2, h3] at hn
          · cases hn
        · cases h
      · rename_i hb
        cases h
        refine .kinds a b v hl fun ⟨h1, h2⟩ => hb ?_
        rw [Bool.and_eq_true]
        refine ⟨pointer_iff.2 h1, ?_⟩
        rcases h2 with rfl | h2
        · simp
        · simp [of_iff.2 h2]
    · rename_i hne
      cases h
      refine .length l v hl fun h2 => ?_
      match l, h2 with
      | [a, b], _ => exact hne a b rfl
  cases v with
  | list l => exact key l (.inl rfl) h
  | tuple l => exact key l (.inr rfl) h
  | _ =>
    simp only [homogenize] at h
    split at h
    · cases h
    · cases h
      exact .other _ fun l => ⟨nofun, nofun⟩

theorem mapE_error {f : V → Except PyErr V} {R : V → V → Prop} (hf : ∀ v w, f v = .ok w ↔ R v w) {l : List V} {e : PyErr} (h : mapE f l = .error e) :
    ∃ before w after ws, before ++ w :: after = l ∧ Each R before ws ∧ f w = .error e := by
  induction l with
  | nil => cases h
  | cons v vs ih =>
    simp only [mapE] at h
    split at h
    · rename_i e' he
      cases h
      exact ⟨[], v, vs, [], rfl, .nil, he⟩
    · rename_i w hw
      split at h
      · rename_i e' he
        cases h
        obtain ⟨b, x, a, ws, rfl, h2, h3⟩ := ih he
        exact ⟨v :: b, x, a, w :: ws, rfl, .cons ((hf _ _).1 hw) h2, h3⟩
      · cases h

/-- C68: the exception that a setter raises for a value that is not acceptable. -/
theorem C68_refusal {k : Kind} {v : V} {e : PyErr} (h : conv env m k v = .error e) : Raises env m k v e ∧ ∀ w, ¬ Stores env m k v w := by
  refine ⟨?_, fun w hw => by rw [C68_setter.2 hw] at h; cases h⟩
  cases k <;> simp only [conv] at h <;> simp only [Raises]
  case raw => cases h
  case str => cases v <;> simp_all [convStr]
  case strName => cases v <;> simp_all [convStr]
  case optStr => cases v <;> simp_all [convOptStr]
  case formula =>
    cases v <;> simp_all [convFormula]
    split at h
    · cases h
    · rename_i he
      cases h
      unfold Strings.setFormula at he
      grind
  case inchi =>
    cases v <;> simp_all [convInchi]
    split at h <;> cases h
  case units =>
    cases v <;> simp_all [convUnits]
    split at h <;> simp_all
  case nominal =>
    unfold convNominal at h
    split at h <;> simp_all
  case bound =>
    unfold convBound at h
    split at h
    · cases h
    · split at h <;> simp_all
  case intLike =>
    unfold convIntLike at h
    repeat' split at h
    all_goals simp_all
  case intBound =>
    unfold convIntBound at h
    split at h
    · rename_i q hq
      split at h
      · cases h
      · cases h
        exact .inl ⟨.inr ⟨q, number_iff.1 hq⟩, rfl⟩
    · rename_i hq
      split at h
      · cases h
        exact .inl ⟨.inl (by assumption), rfl⟩
      · cases h
        exact .inr ⟨⟨by assumption, number_none.1 hq⟩, rfl⟩
  case strSet =>
    have key : ∀ l, someUnhashable l = true ↔ ∃ w ∈ l, (∃ l', w = V.list l') ∨ ∃ ks vs, w = V.dict ks vs := by
      intro l
      simp only [someUnhashable, List.any_eq_true]
      refine exists_congr fun w => and_congr_right fun _ => ?_
      cases w <;> simp
    cases v <;> simp only [convStrSet] at h
    case list l =>
      split at h
      · cases h
      · split at h
        · rename_i hu
          obtain ⟨w, h1, h2⟩ := (key l).1 hu
          cases h
          exact .inl ⟨⟨l, w, .inl rfl, h1, h2⟩, rfl⟩
        · rename_i hu
          cases h
          refine .inr ⟨?_, rfl⟩
          rintro ⟨l', w, h0, h1, h2⟩
          rcases h0 with h0 | h0 <;> cases h0
          exact hu ((key l).2 ⟨w, h1, h2⟩)
    case tuple l =>
      split at h
      · cases h
      · split at h
        · rename_i hu
          obtain ⟨w, h1, h2⟩ := (key l).1 hu
          cases h
          exact .inl ⟨⟨l, w, .inr rfl, h1, h2⟩, rfl⟩
        · rename_i hu
          cases h
          refine .inr ⟨?_, rfl⟩
          rintro ⟨l', w, h0, h1, h2⟩
          rcases h0 with h0 | h0 <;> cases h0
          exact hu ((key l).2 ⟨w, h1, h2⟩)
    all_goals
      cases h
      try exact .inr ⟨by simp, rfl⟩
  case probabilities =>
    have no : (∀ ks vs, v ≠ .dict ks vs) → ¬ ∃ ks vs q, v = .dict ks vs ∧ Sum vs q ∧ (1 / 1000000000 < q - 1 ∨ 1 / 1000000000 < 1 - q) := by
      rintro hv ⟨ks, vs, q, rfl, _⟩
      exact hv ks vs rfl
    cases v <;> simp only [convProbabilities] at h
    case dict ks vs =>
      split at h
      · rename_i q hq
        split at h
        · rename_i hlt
          cases h
          refine .inl ⟨⟨ks, vs, q, rfl, sum_iff.1 hq, ?_⟩, rfl⟩
          unfold fromOne at hlt
          split at hlt
          · exact .inr hlt
          · exact .inl hlt
        · rename_i hlt
          split at h
          · cases h
          · cases h
            refine .inr ⟨?_, rfl⟩
            rintro ⟨ks', vs', q', h0, h1, h2⟩
            cases h0
            have := sum_iff.2 h1
            rw [hq] at this
            cases this
            apply hlt
            unfold fromOne
            split <;> grind
      · rename_i hq
        cases h
        refine .inr ⟨?_, rfl⟩
        rintro ⟨ks', vs', q', h0, h1, h2⟩
        cases h0
        have := sum_iff.2 h1
        rw [hq] at this
        cases this
    all_goals
      cases h
      try exact .inr ⟨no nofun, rfl⟩
  case quantities =>
    unfold convQuantities at h
    split at h <;> try cases h
    · rename_i l hne
      cases l with
      | nil => exact absurd rfl hne
      | cons w l => exact .inl ⟨⟨w, l, rfl⟩, rfl⟩
    · rename_i h1 h2 h3 h4
      exact .inr ⟨fun l hl => h4 l hl, rfl⟩
  case enum ms =>
    cases v <;> simp only [convEnum] at h
    case str s =>
      split at h
      · cases h
      · cases h
        exact .inl ⟨.inr ⟨s, rfl⟩, rfl⟩
    all_goals simp_all
  case obj ts e' =>
    unfold convObj at h
    repeat' split at h
    all_goals simp_all
  case optObj ts =>
    unfold convOptObj at h
    repeat' split at h
    all_goals simp_all
  case objList ts =>
    unfold convList at h
    split at h <;> simp_all
  case strList =>
    unfold convList at h
    split at h <;> simp_all
  case target cs =>
    unfold convTarget at h
    split at h <;> simp_all
  case ranges c =>
    unfold convRanges at h
    split at h
    · rename_i e' he
      cases h
      obtain ⟨b, w, a, ws, h1, h2, h3⟩ := mapE_error (fun v w => range_iff) he
      exact ⟨members v, b, w, a, ws, items_members v, h1, h2, range_error h3⟩
    · cases h

end

/-! ## The constructors of entities -/

/-- a quantity (ContinuousValue) -/
def aQuantity : Kind := .optObj ["nominal_real", "uniform_real", "normal_real"]
/-- bounds (BaseBounds) -/
def someBounds : Kind := .obj ["real_bounds", "integer_bounds", "categorical_bounds", "composition_bounds", "molecular_structure_bounds"] .valueError

/-- the documented arguments of an attribute template -/
def attributeTemplateDoc : List Param := [req "name" .strName, opt "description" .raw, opt "bounds" someBounds, opt "tags" .strList]
/-- the documented arguments that all object templates have -/
def templateDoc : List Param := [req "name" .raw, opt "description" .raw, opt "tags" .strList]
/-- the documented arguments that all objects have, except their name -/
def objectDoc : List Param := [opt "tags" .strList, opt "notes" .raw, opt "file_links" fileLinks]
/-- the documented quantities of an ingredient -/
def quantitiesDoc : List Param := [opt "mass_fraction" aQuantity, opt "volume_fraction" aQuantity, opt "number_fraction" aQuantity, opt "absolute_quantity" aQuantity]

/-- The documented arguments of the classes of entities, except `uids`. -/
def docE : ECls → List Param
  | .propertyTemplate | .conditionTemplate | .parameterTemplate => attributeTemplateDoc
  | .materialTemplate => opt "properties" (.ranges .propertyTemplate) :: templateDoc
  | .processTemplate => opt "conditions" (.ranges .conditionTemplate) :: opt "parameters" (.ranges .parameterTemplate) :: opt "allowed_names" .strList :: opt "allowed_labels" .strList ::
      templateDoc
  | .measurementTemplate => opt "properties" (.ranges .propertyTemplate) :: opt "conditions" (.ranges .conditionTemplate) :: opt "parameters" (.ranges .parameterTemplate) :: templateDoc
  | .materialSpec => req "name" .str :: opt "template" (.target [.materialTemplate]) :: opt "process" (.target [.processSpec]) :: opt "properties" (.objList ["property_and_conditions"]) ::
      objectDoc
  | .processSpec => req "name" .str :: opt "template" (.target [.processTemplate]) :: opt "parameters" (.objList ["parameter"]) :: opt "conditions" (.objList ["condition"]) :: objectDoc
  | .ingredientSpec => req "name" .str :: opt "labels" .strList :: opt "material" (.target [.materialSpec]) :: opt "process" (.target [.processSpec]) :: objectDoc ++ quantitiesDoc
  | .measurementSpec => req "name" .str :: opt "template" (.target [.measurementTemplate]) :: opt "parameters" (.objList ["parameter"]) :: opt "conditions" (.objList ["condition"]) :: objectDoc
  | .materialRun => req "name" .str :: opt "spec" (.target [.materialSpec]) :: opt "process" (.target [.processRun]) :: ⟨"sample_type", some (.str "unknown"), aSampleType⟩ :: objectDoc
  | .processRun => req "name" .str :: opt "spec" (.target [.processSpec]) :: opt "conditions" (.objList ["condition"]) :: opt "parameters" (.objList ["parameter"]) ::
      opt "source" (.optObj ["performed_source"]) :: objectDoc
  | .ingredientRun => opt "spec" (.target [.ingredientSpec]) :: opt "material" (.target [.materialRun]) :: opt "process" (.target [.processRun]) :: objectDoc ++ quantitiesDoc
  | .measurementRun => req "name" .str :: opt "spec" (.target [.measurementSpec]) :: opt "material" (.target [.materialRun]) :: opt "properties" (.objList ["property"]) ::
      opt "conditions" (.objList ["condition"]) :: opt "parameters" (.objList ["parameter"]) :: opt "source" (.optObj ["performed_source"]) :: objectDoc

/-- what is accepted as `uids`: nothing, None, or a dictionary from strings to strings in which no two scopes differ in case only -/
inductive UidsOk (lower : String → String) : Option V → Prop
  | missing : UidsOk lower none
  | none : UidsOk lower (some .none)
  | dict (ps : List (String × String)) : (ps.map fun p => lower p.1).Nodup → UidsOk lower (some (.dict (ps.map fun p => .str p.1) (ps.map fun p => .str p.2)))

section
variable {env : Env} {m : Mem}

theorem docE_args (c : ECls) (p : Param) : p ∈ docE c ↔ p ∈ ((eargs c).map EArg.arg).map param := by
  cases c <;>
    simp [docE, eargs, attributeTemplateDoc, attributeTemplateArgs, templateDoc, templateArgs, objectDoc, objectArgs, quantitiesDoc, quantityArgs, req, opt, param, EArg.arg, propertyRanges,
      conditionRanges, parameterRanges, conditionsArg, parametersArg, pointer, someBounds, boundsTypes, fileLinks, aQuantity, continuousTypes, aSampleType, sampleTypes] <;>
    grind

theorem eargs_names (c : ECls) : (((eargs c).map EArg.arg).map Arg.name).Nodup := by
  cases c <;> decide +kernel

theorem arg_inj {c : ECls} {a b : EArg} (ha : a ∈ eargs c) (hb : b ∈ eargs c) (h : a.name = b.name) : a = b := by
  have hn := eargs_names c
  rw [List.map_map] at hn
  obtain ⟨i, hi, rfl⟩ := List.mem_iff_getElem.1 ha
  obtain ⟨j, hj, rfl⟩ := List.mem_iff_getElem.1 hb
  have := (List.getElem_inj (i := i) (j := j) (h₀ := by simpa using hi) (h₁ := by simpa using hj) hn).1 (by simpa [EArg.arg] using h)
  subst this
  rfl

theorem clash_iff {lower : String → String} {l : List String} : clash lower l = false ↔ (l.map lower).Nodup := by
  induction l with
  | nil => simp [clash]
  | cons s ss ih =>
    simp only [clash, Bool.or_eq_false_iff, ih, List.map_cons, List.nodup_cons]
    refine and_congr_left fun _ => ?_
    simp
    grind

theorem stringPairs_iff {ks vs : List V} {ps : List (String × String)} : stringPairs ks vs = some ps ↔ ks = ps.map (fun p => .str p.1) ∧ vs = ps.map (fun p => .str p.2) := by
  induction ks generalizing vs ps with
  | nil => cases vs <;> cases ps <;> simp [stringPairs]
  | cons k ks ih =>
    cases vs with
    | nil => cases k <;> cases ps <;> simp [stringPairs]
    | cons v vs =>
      cases ps with
      | nil => cases k <;> cases v <;> simp [stringPairs]
      | cons p ps =>
        cases k <;> cases v <;> simp [stringPairs]
        rename_i s t
        constructor
        · rintro ⟨h1, h2⟩
          obtain ⟨e1, e2⟩ := ih.1 h1
          subst h2
          exact ⟨⟨rfl, e1⟩, rfl, e2⟩
        · rintro ⟨⟨rfl, e1⟩, rfl, e2⟩
          exact ⟨ih.2 ⟨e1, e2⟩, rfl⟩

theorem uidsOk_iff {v : Option V} : (∃ u, convUids env (v.getD .none) = .ok u) ↔ UidsOk env.lower v := by
  constructor
  · rintro ⟨u, h⟩
    cases v with
    | none => exact .missing
    | some v =>
      simp only [Option.getD_some] at h
      unfold convUids at h
      split at h
      · exact .none
      · split at h
        · rename_i ps hps
          split at h
          · cases h
          · rename_i hc
            obtain ⟨rfl, rfl⟩ := stringPairs_iff.1 hps
            refine .dict ps ?_
            have := clash_iff.1 (Bool.not_eq_true _ ▸ hc)
            simpa [Function.comp_def] using this
        · cases h
      · cases h
  · intro h
    cases h with
    | missing => exact ⟨[], rfl⟩
    | none => exact ⟨[], rfl⟩
    | dict ps hn =>
      refine ⟨ps, ?_⟩
      simp only [Option.getD_some, convUids, stringPairs_iff.2 ⟨rfl, rfl⟩]
      rw [if_neg]
      rw [Bool.not_eq_true]
      exact clash_iff.2 (by simpa [Function.comp_def] using hn)

theorem newEntity_iff {c : ECls} {kwargs : List (String × V)} {x : EObj} : newEntity env m c kwargs = .ok x ↔
    ∃ vals u, (∃ bound, bindArgs kwargs ((eargs c).map EArg.arg) = .ok bound ∧ setAll env m bound = .ok vals) ∧ convUids env ((Dict.get? kwargs "uids").getD .none) = .ok u ∧
      x = { cls := c, uids := u, fields := ((eargs c).map EArg.attr).zip vals ++ ownFields c } := by
  unfold newEntity
  constructor
  · intro h
    split at h
    · cases h
    · rename_i bound hb
      split at h
      · cases h
      · rename_i vals hv
        split at h
        · cases h
        · rename_i u hu
          cases h
          exact ⟨vals, u, ⟨bound, hb, hv⟩, hu, rfl⟩
  · rintro ⟨vals, u, ⟨bound, hb, hv⟩, hu, rfl⟩
    simp [hb, hv, hu]

/-- position by position, for the constructors of entities -/
theorem accept_vals {c : ECls} {kwargs : List (String × V)} {vals : List V} :
    (∃ bound, bindArgs kwargs ((eargs c).map EArg.arg) = .ok bound ∧ setAll env m bound = .ok vals) ↔ vals.length = (eargs c).length ∧
      Accepted env m (docE c) kwargs (Dict.get? (((eargs c).map EArg.name).zip vals)) := by
  rw [setAll_iff]
  have e : ((eargs c).map EArg.arg).map Arg.name = (eargs c).map EArg.name := by simp [EArg.arg]
  rw [List.length_map]
  refine and_congr_right fun hl => ?_
  rw [zip_iff (eargs_names c) (by simpa using hl) (R := fun a w => ∃ v, Given kwargs (param a) v ∧ Stores env m a.kind v w), e]
  constructor
  · intro h p hp
    obtain ⟨a, ha, rfl⟩ := List.mem_map.1 ((docE_args c p).1 hp)
    obtain ⟨w, ⟨v, h1, h2⟩, h3⟩ := h a ha
    exact ⟨v, w, h1, h2, h3⟩
  · intro h a ha
    obtain ⟨v, w, h1, h2, h3⟩ := h (param a) ((docE_args c _).2 (List.mem_map.2 ⟨a, ha, rfl⟩))
    exact ⟨w, ⟨v, h1, h2⟩, h3⟩

theorem exists_vals {ps : List Param} {as : List EArg} (hp : ∀ a ∈ as, ∃ p ∈ ps, p.name = a.name ∧ p.kind = a.kind) {kwargs : List (String × V)}
    (h : ∀ p ∈ ps, ∃ v w, Given kwargs p v ∧ Stores env m p.kind v w) : ∃ f : EArg → V, ∀ a ∈ as, ∃ p ∈ ps, p.name = a.name ∧ ∃ v, Given kwargs p v ∧ Stores env m p.kind v (f a) := by
  classical
  have : ∀ a, ∃ w, a ∈ as → ∃ p ∈ ps, p.name = a.name ∧ ∃ v, Given kwargs p v ∧ Stores env m p.kind v w := by
    intro a
    by_cases ha : a ∈ as
    · obtain ⟨p, hpp, hn, hk⟩ := hp a ha
      obtain ⟨v, w, h1, h2⟩ := h p hpp
      exact ⟨w, fun _ => ⟨p, hpp, hn, v, h1, h2⟩⟩
    · exact ⟨.none, fun h => absurd h ha⟩
  exact ⟨fun a => Classical.choose (this a), fun a ha => Classical.choose_spec (this a) ha⟩

/-- C68: the constructor of an entity succeeds exactly if every documented argument is given (or has a default) and acceptable, and the uids are acceptable. -/
theorem C68_new_accepts (c : ECls) (kwargs : List (String × V)) : (∃ o m', constructE env m c kwargs = .ok (o, m')) ↔
    (∀ p ∈ docE c, ∃ v w, Given kwargs p v ∧ Stores env m p.kind v w) ∧ UidsOk env.lower (Dict.get? kwargs "uids") := by
  constructor
  · rintro ⟨o, m', h⟩
    unfold constructE at h
    split at h
    · cases h
    · rename_i x hx
      obtain ⟨vals, u, hv, hu, rfl⟩ := newEntity_iff.1 hx
      obtain ⟨_, ha⟩ := accept_vals.1 hv
      refine ⟨fun p hp => ?_, uidsOk_iff.1 ⟨u, hu⟩⟩
      obtain ⟨v, w, h1, h2, _⟩ := ha p hp
      exact ⟨v, w, h1, h2⟩
  · rintro ⟨h, hu⟩
    obtain ⟨u, hu⟩ := uidsOk_iff.2 hu
    have hp : ∀ a ∈ eargs c, ∃ p ∈ docE c, p.name = a.name ∧ p.kind = a.kind := fun a ha =>
      ⟨param a.arg, (docE_args c _).2 (List.mem_map.2 ⟨a.arg, List.mem_map.2 ⟨a, ha, rfl⟩, rfl⟩), rfl, rfl⟩
    obtain ⟨f, hf⟩ := exists_vals hp h
    have hacc : Accepted env m (docE c) kwargs (Dict.get? (((eargs c).map EArg.name).zip ((eargs c).map f))) := by
      intro p hp
      obtain ⟨a', ha', rfl⟩ := List.mem_map.1 ((docE_args c p).1 hp)
      obtain ⟨a, ha, rfl⟩ := List.mem_map.1 ha'
      obtain ⟨q, hq, hn, v, h1, h2⟩ := hf a ha
      obtain ⟨b', hb', rfl⟩ := List.mem_map.1 ((docE_args c q).1 hq)
      obtain ⟨b, hb, rfl⟩ := List.mem_map.1 hb'
      have : b = a := arg_inj hb ha hn
      subst this
      refine ⟨v, f b, h1, h2, ?_⟩
      apply Dict.get?_of_mem
      · unfold Dict.WF Dict.keys
        rw [List.map_fst_zip (by simp)]
        simpa [EArg.arg, Function.comp_def] using eargs_names c
      · rw [List.zip_map']
        exact List.mem_map.2 ⟨b, hb, rfl⟩
    obtain hv := accept_vals.2 ⟨by simp, hacc⟩
    have hx := newEntity_iff.2 ⟨_, u, hv, hu, rfl⟩
    simp only [constructE, hx]
    exact ⟨_, _, rfl⟩

end
end Verif.Declared
