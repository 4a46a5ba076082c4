import Verif.Props.Resolve
import Verif.Props.BackLinks
import Verif.Model.Inplace
/-!
# Lemmas on substitution in place
-/

set_option linter.unusedSimpArgs false
set_option linter.unusedVariables false
set_option linter.unusedSectionVars false

namespace Verif.Inplace
open Verif.Py Verif.Value Verif.Schema Verif.Json Verif.Substitute

/-! ## Replacing in a value -/

mutual
/-- `v` with the entities and links in it replaced -/
def put (f : Nat → V) (g : String → String → V) : V → V
  | .list l => .list (puts f g l)
  | .tuple l => .tuple (puts f g l)
  | .dict ks vs => .dict ks (puts f g vs)
  | .obj t ns vs => .obj t ns (puts f g vs)
  | .link s i => g s i
  | .ref o => f o
  | .none => .none
  | .bool b => .bool b
  | .int i => .int i
  | .float q => .float q
  | .str s => .str s
def puts (f : Nat → V) (g : String → String → V) : List V → List V
  | [] => []
  | v :: vs => put f g v :: puts f g vs
end

mutual
/-- there are no tuples in the value, the keys of its dictionaries are distinct strings, and its objects have a value for each attribute -/
def Plain : V → Prop
  | .list l => Plains l
  | .tuple _ => False
  | .dict ks vs => (∃ names : List String, ks = names.map .str ∧ names.Nodup ∧ names.length = vs.length) ∧ Plains vs
  | .obj _ ns vs => ns.length = vs.length ∧ Plains vs
  | _ => True
def Plains : List V → Prop
  | [] => True
  | v :: vs => Plain v ∧ Plains vs
end

theorem puts_eq (f : Nat → V) (g : String → String → V) (l : List V) : puts f g l = l.map (put f g) := by
  induction l with
  | nil => rfl
  | cons v vs ih => simp [puts, ih]

theorem plains_iff (l : List V) : Plains l ↔ ∀ v ∈ l, Plain v := by
  induction l with
  | nil => simp [Plains]
  | cons v vs ih => simp [Plains, ih]

/-- replaced by links and entities -/
def Pointers (f : Nat → V) (g : String → String → V) : Prop := (∀ o, pointerLike (f o)) ∧ ∀ s i, pointerLike (g s i)

theorem plain_pointer {v : V} (h : pointerLike v) : Plain v := by
  cases v <;> simp [pointerLike] at h <;> simp [Plain]

section
variable {f : Nat → V} {g : String → String → V}

mutual
theorem plain_put (hp : Pointers f g) (v : V) (h : Plain v) : Plain (put f g v) := by
  cases v with
  | list l => simp only [Plain, put] at h ⊢; exact plains_puts hp l h
  | tuple l => simp [Plain] at h
  | dict ks vs =>
    simp only [Plain, put] at h ⊢
    obtain ⟨⟨names, h1, h2, h3⟩, h4⟩ := h
    exact ⟨⟨names, h1, h2, by rw [h3, puts_eq, List.length_map]⟩, plains_puts hp vs h4⟩
  | obj t ns vs =>
    simp only [Plain, put] at h ⊢
    exact ⟨by rw [h.1, puts_eq, List.length_map], plains_puts hp vs h.2⟩
  | link s i => simp only [put]; exact plain_pointer (hp.2 s i)
  | ref o => simp only [put]; exact plain_pointer (hp.1 o)
  | _ => simp [put, Plain]
termination_by structural v
theorem plains_puts (hp : Pointers f g) (l : List V) (h : Plains l) : Plains (puts f g l) := by
  cases l with
  | nil => simp [puts, Plains]
  | cons v vs => simp only [Plains, puts] at h ⊢; exact ⟨plain_put hp v h.1, plains_puts hp vs h.2⟩
termination_by structural l
end

mutual
theorem put_fixed (v : V) (hf : ∀ o, V.ref o ∈ v.subs → f o = .ref o) (hg : ∀ s i, V.link s i ∈ v.subs → g s i = .link s i) : put f g v = v := by
  cases v with
  | list l => simp only [put, puts_fixed l (fun o ho => hf o (by simp [V.subs, ho])) (fun s i ho => hg s i (by simp [V.subs, ho]))]
  | tuple l => simp only [put, puts_fixed l (fun o ho => hf o (by simp [V.subs, ho])) (fun s i ho => hg s i (by simp [V.subs, ho]))]
  | dict ks vs => simp only [put, puts_fixed vs (fun o ho => hf o (by simp [V.subs, ho])) (fun s i ho => hg s i (by simp [V.subs, ho]))]
  | obj t ns vs => simp only [put, puts_fixed vs (fun o ho => hf o (by simp [V.subs, ho])) (fun s i ho => hg s i (by simp [V.subs, ho]))]
  | link s i => exact hg s i (by simp [V.subs])
  | ref o => exact hf o (by simp [V.subs])
  | _ => simp [put]
termination_by structural v
theorem puts_fixed (l : List V) (hf : ∀ o, V.ref o ∈ subss l → f o = .ref o) (hg : ∀ s i, V.link s i ∈ subss l → g s i = .link s i) : puts f g l = l := by
  cases l with
  | nil => rfl
  | cons v vs =>
    simp only [puts, put_fixed v (fun o ho => hf o (by simp [subss, ho])) (fun s i ho => hg s i (by simp [subss, ho])),
      puts_fixed vs (fun o ho => hf o (by simp [subss, ho])) (fun s i ho => hg s i (by simp [subss, ho]))]
termination_by structural l
end

mutual
theorem put_put {f' : Nat → V} {g' : String → String → V} (v : V) :
    put f' g' (put f g v) = put (fun o => put f' g' (f o)) (fun s i => put f' g' (g s i)) v := by
  cases v with
  | list l => simp only [put, puts_puts l]
  | tuple l => simp only [put, puts_puts l]
  | dict ks vs => simp only [put, puts_puts vs]
  | obj t ns vs => simp only [put, puts_puts vs]
  | _ => simp [put]
termination_by structural v
theorem puts_puts {f' : Nat → V} {g' : String → String → V} (l : List V) :
    puts f' g' (puts f g l) = puts (fun o => put f' g' (f o)) (fun s i => put f' g' (g s i)) l := by
  cases l with
  | nil => rfl
  | cons v vs => simp only [puts, put_put v, puts_puts vs]
termination_by structural l
end

end

/-- the links of a value replaced by what the index says they mean -/
def resolve (index : Dict (String × String) Nat) : V → V := put .ref (meaning index)

theorem resolve_pointers (index : Dict (String × String) Nat) : Pointers .ref (meaning index) := ⟨fun _ => trivial, pointerLike_meaning index⟩

theorem resolve_meaning (index : Dict (String × String) Nat) (s i : String) : resolve index (meaning index s i) = meaning index s i := by
  unfold meaning
  split
  · rfl
  · rename_i h
    simp [resolve, put, meaning, h]

theorem resolve_resolve (index : Dict (String × String) Nat) (v : V) : resolve index (resolve index v) = resolve index v := by
  unfold resolve
  rw [put_put]
  have e1 : (fun o => put V.ref (meaning index) (V.ref o)) = V.ref := by funext o; rfl
  have e2 : (fun s i => put V.ref (meaning index) (meaning index s i)) = meaning index := by funext s i; exact resolve_meaning index s i
  rw [e1, e2]

/-! ## Lists of strings and names have nothing to be replaced -/

theorem put_str {f : Nat → V} {g : String → String → V} {v : V} (h : isStr v = true) : put f g v = v := by
  cases v <;> simp [isStr] at h <;> rfl

theorem puts_str {f : Nat → V} {g : String → String → V} {l : List V} (h : ∀ w ∈ l, isStr w = true) : puts f g l = l := by
  rw [puts_eq]
  conv => rhs; rw [← List.map_id l]
  exact List.map_congr_left (fun w hw => put_str (h w hw))

theorem put_name {f : Nat → V} {g : String → String → V} {v : V} (h : nameLike v) : put f g v = v := by
  rcases h with rfl | h
  · rfl
  · exact put_str h

theorem put_labels {f : Nat → V} {g : String → String → V} {v : V} (h : labelsLike v) : put f g v = v := by
  rcases h with rfl | ⟨l, rfl, h⟩
  · rfl
  · simp only [put, puts_str h]

theorem str_subs {v : V} (h : isStr v = true) (o : Nat) : V.ref o ∉ v.subs := by
  cases v <;> simp [isStr] at h <;> simp [V.subs]

theorem name_subs {v : V} (h : nameLike v) (o : Nat) : V.ref o ∉ v.subs := by
  rcases h with rfl | h
  · simp [V.subs]
  · exact str_subs h o

theorem labels_subs {v : V} (h : labelsLike v) (o : Nat) : V.ref o ∉ v.subs := by
  rcases h with rfl | ⟨l, rfl, h⟩
  · simp [V.subs]
  · simp only [V.subs, List.mem_cons, reduceCtorEq, false_or]
    intro hm
    obtain ⟨w, hw, hm⟩ := mem_subss.1 hm
    exact str_subs (h w hw) o hm

theorem plain_str {v : V} (h : isStr v = true) : Plain v := by
  cases v <;> simp [isStr] at h <;> simp [Plain]

theorem plain_name {v : V} (h : nameLike v) : Plain v := by
  rcases h with rfl | h
  · simp [Plain]
  · exact plain_str h

theorem plain_labels {v : V} (h : labelsLike v) : Plain v := by
  rcases h with rfl | ⟨l, rfl, h⟩
  · simp [Plain]
  · simp only [Plain]
    exact (plains_iff l).2 (fun w hw => plain_str (h w hw))

/-! ## Attributes -/

/-- what does not change in an entity -/
def skel (x : EObj) : ECls × List (String × String) × List String := (x.cls, x.uids, x.fields.map Prod.fst)

theorem setField_skel (m : Mem) (o : Nat) (a : String) (f : V → V) : (setField m o a f).map skel = m.map skel := by
  apply List.ext_getElem?
  intro p
  rw [List.getElem?_map, List.getElem?_map, setField_at, Option.map_map]
  congr 1
  funext x
  simp only [Function.comp]
  split
  · simp only [skel, List.map_map, Prod.mk.injEq, true_and]
    apply List.map_congr_left
    intro g _
    simp only [Function.comp]
    split <;> rfl
  · rfl

theorem get?_at (fs : List (String × V)) (a : String) (f : V → V) :
    Dict.get? (fs.map (fun g => if g.1 = a then (g.1, f g.2) else g)) a = (Dict.get? fs a).map f := by
  induction fs with
  | nil => rfl
  | cons g fs ih =>
    obtain ⟨n, v⟩ := g
    simp only [List.map_cons]
    by_cases h : n = a
    · simp [h, Dict.get?]
    · simp only [h, if_false]
      simp only [Dict.get?, h, if_false]
      exact ih

theorem attrAt_setField (m : Mem) (o : Nat) (a : String) (f : V → V) (p : Nat) (b : String) :
    attrAt (setField m o a f) p b = if p = o ∧ b = a then (attrAt m o a).map f else attrAt m p b := by
  unfold attrAt
  rw [setField_at]
  cases hx : m[p]? with
  | none =>
    simp only [Option.map_none]
    split
    · rename_i h
      obtain ⟨rfl, rfl⟩ := h
      simp [hx]
    · rfl
  | some x =>
    simp only [Option.map_some]
    by_cases h : p = o
    · subst h
      simp only [true_and, if_true]
      by_cases hb : b = a
      · subst hb
        simp only [if_true, hx, get?_at]
      · rw [if_neg hb]
        exact get?_map_other _ _ _ _ hb
    · simp [h]

/-- the class of an entity -/
def clsAt (m : Mem) (o : Nat) : Option ECls := (m[o]?).map EObj.cls

theorem clsAt_skel {m m' : Mem} (h : m'.map skel = m.map skel) (o : Nat) : clsAt m' o = clsAt m o := by
  have := congrArg (fun l => (l[o]?).map Prod.fst) h
  simpa [List.getElem?_map, Option.map_map, Function.comp_def, skel, clsAt] using this

theorem skel_at {m m' : Mem} (h : m'.map skel = m.map skel) {o : Nat} {x : EObj} (hx : m[o]? = some x) : ∃ x', m'[o]? = some x' ∧ skel x' = skel x := by
  have := congrArg (fun l => l[o]?) h
  simp only [List.getElem?_map, hx, Option.map_some] at this
  cases hx' : m'[o]? with
  | none => simp [hx'] at this
  | some x' => exact ⟨x', rfl, by simpa [hx'] using this⟩

theorem skel_length {m m' : Mem} (h : m'.map skel = m.map skel) : m'.length = m.length := by
  simpa using congrArg List.length h

/-! ## Two-way links -/

theorem points_attr {m : Mem} {n : String} {a b : Nat} : Points m n a b ↔ ∃ c there, clsAt m a = some c ∧ backRef c = some (there, n) ∧
    attrAt m a there = some (.ref b) := by
  rw [← points_iff]
  cases hx : m[a]? with
  | none => simp [pointsBack, clsAt, hx]
  | some x =>
    rw [pointsBack_iff hx]
    simp [clsAt, attrAt, hx]

/-- the attribute `n` of the entity `b` has the value `v`, which names exactly those that point at `b` -/
inductive Lists (m : Mem) (n : String) (b : Nat) : V → Prop where
  | none : n = "_output_material" → (∀ a, ¬ Points m n a b) → Lists m n b .none
  | one (a : Nat) : n = "_output_material" → Points m n a b → (∀ c, Points m n c b → c = a) → Lists m n b (.ref a)
  | many (as : List Nat) : n ≠ "_output_material" → as.Nodup → (∀ a, a ∈ as ↔ Points m n a b) → Lists m n b (.list (as.map .ref))

/-- All two-way links are intact: what is named at the other end of a link is exactly what points there. -/
def TwoWay (m : Mem) : Prop := ∀ (b : Nat) (n : String) (v : V), n ∈ backNames → attrAt m b n = some v → Lists m n b v

theorem Lists.congr {m m' : Mem} {n : String} {b : Nat} {v : V} (h : Lists m n b v) (e : ∀ a, Points m' n a b ↔ Points m n a b) : Lists m' n b v := by
  cases h with
  | none h1 h2 => exact .none h1 (fun a h => h2 a ((e a).1 h))
  | one a h1 h2 h3 => exact .one a h1 ((e a).2 h2) (fun c h => h3 c ((e c).1 h))
  | many as h1 h2 h3 => exact .many as h1 h2 (fun a => by rw [h3 a, e a])

/-! ## Dictionaries and objects -/

theorem set_middle {A B : List (V × V)} {k v w : V} (h : ∀ e ∈ A, e.1 ≠ k) : Dict.set (A ++ (k, v) :: B) k w = A ++ (k, w) :: B := by
  induction A with
  | nil => simp [Dict.set]
  | cons e A ih =>
    obtain ⟨a, b⟩ := e
    have : a ≠ k := h (a, b) (by simp)
    simp only [List.cons_append, Dict.set, this, if_false]
    rw [ih (fun e he => h e (by simp [he]))]

theorem setDict_fold (ks : List V) (hk : ks.Nodup) : ∀ (vs ws : List V) (A : List (V × V)), ks.length = vs.length → ks.length = ws.length →
    (∀ e ∈ A, e.1 ∉ ks) →
    ((((ks.zip vs).zip (ks.zip ws)).filter fun e => decide (e.1 ≠ e.2)).map Prod.snd).foldl (fun d e => Dict.set d e.1 e.2) (A ++ ks.zip vs) = A ++ ks.zip ws := by
  induction ks with
  | nil => intro vs ws A _ _ _; simp
  | cons k ks ih =>
    intro vs ws A h1 h2 hA
    cases vs with
    | nil => simp at h1
    | cons v vs =>
      cases ws with
      | nil => simp at h2
      | cons w ws =>
        have hk' := List.nodup_cons.1 hk
        have hA' : ∀ u, ∀ e ∈ A ++ [(k, u)], e.1 ∉ ks := by
          intro u e he
          rcases List.mem_append.1 he with he | he
          · exact fun h => hA e he (by simp [h])
          · rw [List.mem_singleton] at he
            subst he
            exact hk'.1
        simp only [List.zip_cons_cons, List.filter_cons]
        split
        · simp only [List.map_cons, List.foldl_cons]
          rw [set_middle (fun e he h => hA e he (by simp [h]))]
          have := ih hk'.2 vs ws (A ++ [(k, w)]) (by simpa using h1) (by simpa using h2) (hA' w)
          simpa using this
        · rename_i hn
          have e : v = w := by simpa using hn
          subst e
          have := ih hk'.2 vs ws (A ++ [(k, v)]) (by simpa using h1) (by simpa using h2) (hA' v)
          simpa using this

theorem setDict_values {names : List String} (hn : names.Nodup) {vs ws : List V} (h1 : names.length = vs.length) (h2 : names.length = ws.length) :
    setDict (names.map .str) vs (names.map .str) ws = .dict (names.map .str) ws := by
  have hk : (names.map V.str).Nodup := by
    rw [List.nodup_iff_pairwise_ne] at hn ⊢
    exact List.pairwise_map.2 (hn.imp (fun h e => h (V.str.inj e)))
  unfold setDict
  have hkept : ((((names.map V.str).zip vs).zip ((names.map V.str).zip ws)).filter fun e => decide (e.1.1 = e.2.1)).map Prod.fst = (names.map V.str).zip vs := by
    have : ∀ (ks vs ws : List V), ks.length = vs.length → ks.length = ws.length →
        (((ks.zip vs).zip (ks.zip ws)).filter fun e => decide (e.1.1 = e.2.1)).map Prod.fst = ks.zip vs := by
      intro ks
      induction ks with
      | nil => intro vs ws _ _; simp
      | cons k ks ih =>
        intro vs ws h1 h2
        cases vs with
        | nil => simp at h1
        | cons v vs =>
          cases ws with
          | nil => simp at h2
          | cons w ws =>
            simp only [List.zip_cons_cons, List.filter_cons, decide_true, if_true, List.map_cons]
            rw [ih vs ws (by simpa using h1) (by simpa using h2)]
    exact this _ _ _ (by simpa using h1) (by simpa using h2)
  have hf := setDict_fold (names.map .str) hk vs ws [] (by simpa using h1) (by simpa using h2) (by simp)
  simp only [List.nil_append] at hf
  simp only [hkept, hf]
  rw [List.map_fst_zip (by simp [h2]), List.map_snd_zip (by simp [h2])]

theorem puts_names {f : Nat → V} {g : String → String → V} (names : List String) : puts f g (names.map .str) = names.map .str :=
  puts_str (fun w hw => by obtain ⟨s, _, rfl⟩ := List.mem_map.1 hw; rfl)

theorem find_arg {as : List Arg} (hn : (as.map Arg.name).Nodup) {a : Arg} (ha : a ∈ as) : as.find? (fun b => decide (b.name = a.name)) = some a := by
  induction as with
  | nil => simp at ha
  | cons b as ih =>
    simp only [List.map_cons, List.nodup_cons] at hn
    rcases List.mem_cons.1 ha with rfl | ha
    · simp
    · have : b.name ≠ a.name := fun e => hn.1 (e ▸ List.mem_map.2 ⟨a, ha, rfl⟩)
      simp [List.find?_cons, this, ih hn.2 ha]

/-- the attributes of an object are set to values that the constructor takes as they are -/
theorem setObj_ok {env : Env} {m : Mem} {t : String} {ns : List String} {vs ws : List V} (hl : vs.length = ns.length) (hs : Stable env m t ns ws) :
    setObj env m t ns vs ws = .ok ws := by
  obtain ⟨c, hc, rfl, hl', hconv, _⟩ := hs
  have hn := (table_names t c hc).1
  have gen : ∀ (as : List Arg) (vs ws : List V), (∀ a ∈ as, a ∈ c.args) → vs.length = as.length → ws.length = as.length →
      (∀ p ∈ as.zip ws, conv env m p.1.kind p.2 = .ok p.2) → setObj env m t (as.map Arg.name) vs ws = .ok ws := by
    intro as
    induction as with
    | nil =>
      intro vs ws _ h1 h2 _
      simp only [List.length_nil, List.length_eq_zero_iff] at h1 h2
      simp [setObj, h1, h2]
    | cons a as ih =>
      intro vs ws hm h1 h2 hcv
      cases vs with
      | nil => simp at h1
      | cons v vs =>
        cases ws with
        | nil => simp at h2
        | cons w ws =>
          have hk : objKind t a.name = a.kind := by
            simp only [objKind, hc, find_arg hn (hm a (by simp))]
          have h3 := hcv (a, w) (by simp)
          have h4 := ih vs ws (fun b hb => hm b (by simp [hb])) (by simpa using h1) (by simpa using h2) (fun p hp => hcv p (by simp [hp]))
          simp only [List.map_cons, setObj, hk]
          by_cases e : w = v
          · simp [e, h4]
          · simp only [e, if_false]
            rw [h3]
            simp [h4]
  exact gen c.args vs ws (fun _ h => h) (by rw [hl]; simp [Cls.names]) (by rw [hl']; simp [Cls.names]) hconv

/-! ## What the attributes of an entity hold -/

theorem eargs_attrs (c : ECls) : ((eargs c).map EArg.attr).Nodup := by
  cases c <;> decide +kernel

theorem find_earg {as : List EArg} (hn : (as.map EArg.attr).Nodup) {a : EArg} (ha : a ∈ as) : as.find? (fun b => decide (b.attr = a.attr)) = some a := by
  induction as with
  | nil => simp at ha
  | cons b as ih =>
    simp only [List.map_cons, List.nodup_cons] at hn
    rcases List.mem_cons.1 ha with rfl | ha
    · simp
    · have : b.attr ≠ a.attr := fun e => hn.1 (e ▸ List.mem_map.2 ⟨a, ha, rfl⟩)
      simp [List.find?_cons, this, ih hn.2 ha]

theorem kindOf_arg {c : ECls} {a : EArg} (ha : a ∈ eargs c) : kindOf c a.attr = a.kind := by
  simp only [kindOf, find_earg (eargs_attrs c) ha]

theorem own_back (c : ECls) : c ≠ .ingredientRun → ∀ n ∈ (ownFields c).map Prod.fst, n ∈ backNames := by
  cases c <;> decide +kernel

theorem skip_back (c : ECls) : ∀ n ∈ skip c, n ∈ backNames := by
  cases c <;> decide +kernel

theorem back_attr (c : ECls) : ∀ a ∈ eargs c, a.attr ∉ backNames := by
  have : ∀ c : ECls, ∀ n ∈ (eargs c).map EArg.attr, n ∉ backNames := by intro c; cases c <;> decide +kernel
  exact fun a ha => this c _ (List.mem_map.2 ⟨a, ha, rfl⟩)

theorem get?_append_right {k : String} : ∀ (as : List String) (vals : List V) (own : List (String × V)), k ∉ as →
    Dict.get? (as.zip vals ++ own) k = Dict.get? own k := by
  intro as
  induction as with
  | nil => intro vals own _; simp
  | cons a as ih =>
    intro vals own h
    cases vals with
    | nil => simp
    | cons v vals =>
      simp only [List.mem_cons, not_or] at h
      simp only [List.zip_cons_cons, List.cons_append, Dict.get?, Ne.symm h.1, if_false]
      exact ih vals own h.2

/-- what a forward attribute of a well-typed entity holds -/
structure Fits (env : Env) (m : Mem) (c : ECls) (a : String) (v : V) : Prop where
  conv : conv env m (kindOf c a) v = .ok v
  ok : okV env m v
  name : c = .ingredientRun → a = "_name" → nameLike v
  labels : c = .ingredientRun → a = "_labels" → labelsLike v

theorem fits_of_typed {env : Env} {m : Mem} (hW : WellTyped env m) {o : Nat} {c : ECls} (hc : clsAt m o = some c) {a : String} {v : V}
    (ha : attrAt m o a = some v) (hb : a ∉ backNames) : Fits env m c a v := by
  unfold clsAt at hc
  unfold attrAt at ha
  cases hx : m[o]? with
  | none => simp [hx] at ha
  | some x =>
    simp only [hx, Option.map_some, Option.some.injEq] at hc ha
    obtain ⟨vals, own, hs, hown⟩ := hW o x hx
    subst hc
    by_cases hk : ∃ b ∈ eargs x.cls, b.attr = a
    · obtain ⟨b, w, h1, h2, h3⟩ := get?_arg hs.len own hk
      rw [hs.fields, h3] at ha
      cases ha
      have hb' := (List.of_mem_zip h1).1
      refine ⟨?_, hs.ok v (List.of_mem_zip h1).2, ?_, ?_⟩
      · rw [← h2, kindOf_arg hb']
        exact hs.conv _ h1
      · intro e1 e2
        exact absurd (h2.trans e2) ((eargs_attr _ _ hb').2.2 e1).1
      · intro e1 e2
        exact absurd (h2.trans e2) ((eargs_attr _ _ hb').2.2 e1).2
    · have hk' : a ∉ (eargs x.cls).map EArg.attr := fun h => hk (by obtain ⟨b, h1, h2⟩ := List.mem_map.1 h; exact ⟨b, h1, h2⟩)
      have hnone : kindOf x.cls a = .raw := by
        unfold kindOf
        have : (eargs x.cls).find? (fun b => decide (b.attr = a)) = none := by
          rw [List.find?_eq_none]
          intro b hb' h
          exact hk ⟨b, hb', by simpa using h⟩
        rw [this]
      rw [hs.fields, get?_append_right _ _ _ hk'] at ha
      have hmem : a ∈ own.map Prod.fst := List.mem_map.2 ⟨(a, v), Dict.mem_of_get? ha, rfl⟩
      rw [hs.own] at hmem
      by_cases hi : x.cls = .ingredientRun
      · obtain ⟨name, labels, e, h1, h2⟩ := hown hi
        subst e
        simp only [Dict.get?] at ha
        split at ha
        · rename_i e
          cases ha
          refine ⟨by rw [hnone]; rfl, ?_, fun _ _ => h1, fun _ e' => absurd (e.trans e') (by decide)⟩
          rcases h1 with rfl | h1
          · simp [okV]
          · cases v <;> simp [isStr] at h1 <;> simp [okV]
        · split at ha
          · rename_i e
            cases ha
            refine ⟨by rw [hnone]; rfl, ?_, fun _ e' => absurd (e.trans e') (by decide), fun _ _ => h2⟩
            rcases h2 with rfl | ⟨l, rfl, h2⟩
            · simp [okV]
            · simp only [okV]
              refine (okVs_iff env m l).2 (fun w hw => ?_)
              have := h2 w hw
              cases w <;> simp [isStr] at this <;> simp [okV]
          · cases ha
      · exact absurd (own_back _ hi a hmem) hb

/-! ## Bounds -/

/-- the kinds of the attributes of bounds -/
def boundKind : Kind → Bool
  | .units => true
  | .bound => true
  | .intBound => true
  | .strSet => true
  | _ => false

theorem conv_bound {env : Env} {m : Mem} {k : Kind} (hk : boundKind k = true) {v : V} (h : conv env m k v = .ok v) {f : Nat → V} {g : String → String → V} :
    put f g v = v := by
  cases k <;> simp [boundKind] at hk
  · cases v <;> simp [conv, convUnits] at h <;> rfl
  · cases v <;> simp [conv, convBound, Schema.num] at h <;> rfl
  · cases v <;> simp [conv, convIntBound, Schema.num] at h <;> rfl
  · have : ∃ ss : List String, v = .list (ss.map .str) := by
      cases v <;> simp only [conv, convStrSet] at h
      case none => cases h
      case list l =>
        split at h
        · exact ⟨_, (Except.ok.inj h).symm⟩
        · split at h <;> cases h
      case tuple l =>
        split at h
        · exact absurd (Except.ok.inj h) (by simp)
        · split at h <;> cases h
      all_goals cases h
    obtain ⟨ss, rfl⟩ := this
    simp only [put, puts_names]

theorem put_bounds {env : Env} {m : Mem} {b : V} (ht : isTyp boundsTypes b = true) (hb : okV env m b) {f : Nat → V} {g : String → String → V} :
    put f g b = b := by
  cases b <;> simp [isTyp] at ht
  rename_i t ns vs
  simp only [okV] at hb
  obtain ⟨⟨c, hc, hns, hl, hconv, _⟩, _⟩ := hb
  have key : ∀ e ∈ table, e.1 ∈ boundsTypes → e.2.args.all (fun a => boundKind a.kind) = true := by decide +kernel
  have hk := key (t, c) (Dict.mem_of_get? hc) ht
  simp only [put]
  congr 1
  rw [puts_eq]
  conv => rhs; rw [← List.map_id vs]
  apply List.map_congr_left
  intro v hv
  obtain ⟨i, hi, rfl⟩ := List.getElem_of_mem hv
  have hi' : i < c.args.length := by
    have : c.names.length = c.args.length := by simp [Cls.names]
    rw [← this, ← hns, ← hl]; exact hi
  have hz : (c.args[i], vs[i]) ∈ c.args.zip vs := by
    rw [List.mem_iff_getElem]
    exact ⟨i, by rw [List.length_zip]; omega, by simp⟩
  exact conv_bound (List.all_eq_true.1 hk _ (List.getElem_mem hi')) (hconv _ hz)

theorem kind_bounds (c : ECls) : ∀ a ∈ eargs c, a.attr = "_bounds" → a.kind = .obj boundsTypes .valueError := by
  cases c <;> decide +kernel

theorem bounds_fixed {env : Env} {m : Mem} (hW : WellTyped env m) {o : Nat} {b : V} (h : attrAt m o "_bounds" = some b) {f : Nat → V} {g : String → String → V} :
    put f g b = b := by
  have hx : ∃ x, m[o]? = some x := by
    unfold attrAt at h
    cases hx : m[o]? with
    | none => simp [hx] at h
    | some x => exact ⟨x, rfl⟩
  obtain ⟨x, hx⟩ := hx
  have hf := fits_of_typed hW (c := x.cls) (by simp [clsAt, hx]) h (by decide)
  obtain ⟨vals, own, hs, hown⟩ := hW o x hx
  have hk : ∃ a ∈ eargs x.cls, a.attr = "_bounds" := by
    apply Classical.byContradiction
    intro hk
    have hk' : "_bounds" ∉ (eargs x.cls).map EArg.attr := fun h => hk (by obtain ⟨b, h1, h2⟩ := List.mem_map.1 h; exact ⟨b, h1, h2⟩)
    simp only [attrAt, hx] at h
    rw [hs.fields, get?_append_right _ _ _ hk'] at h
    have hmem : "_bounds" ∈ own.map Prod.fst := List.mem_map.2 ⟨_, Dict.mem_of_get? h, rfl⟩
    rw [hs.own] at hmem
    have : ∀ c : ECls, "_bounds" ∉ (ownFields c).map Prod.fst := by intro c; cases c <;> decide +kernel
    exact this _ hmem
  obtain ⟨a, ha, e⟩ := hk
  have hc := hf.conv
  rw [← e, kindOf_arg ha, kind_bounds _ a ha e] at hc
  simp only [conv, convObj] at hc
  split at hc
  · cases hc
  · split at hc
    · rename_i ht
      exact put_bounds ht hf.ok
    · cases hc

end Verif.Inplace
