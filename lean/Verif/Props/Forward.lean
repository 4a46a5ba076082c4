import Verif.Props.Built
import Verif.Props.Visit
import Verif.Model.Substitute
/-!
# Where the entities occur in the attributes of an entity

In an entity whose attributes hold what their setters allow, the entities in reach without following back references are those that
come earlier in the order in which `flatten` writes.
-/

set_option linter.unusedSimpArgs false
set_option linter.unusedVariables false
set_option linter.unusedSectionVars false

namespace Verif.Json
open Verif.Py Verif.Value Verif.Schema

/-- the names of the attributes that take any value -/
def freeNames : List String :=
  ["name", "notes", "description", "filename", "url", "lower_bound", "upper_bound", "mean", "std", "probabilities", "quantities"]

/-- no entity occurs in them -/
def FreePlain (fs : List (String × V)) : Prop := ∀ f ∈ fs, f.1 ∈ freeNames → ∀ p, V.ref p ∉ f.2.subs

/-- nor in those of the objects in a value -/
def FreeInside (v : V) : Prop := ∀ t ns vs, V.obj t ns vs ∈ v.subs → FreePlain (ns.zip vs)

theorem scalar_subs {v : V} (h : scalar v = true) (p : Nat) : V.ref p ∉ v.subs := by
  cases v <;> simp [scalar] at h <;> simp [V.subs]

theorem plain_subs {env : Env} {m : Mem} {k : Kind} (hk : plainKind k = true) {v : V} (h : conv env m k v = .ok v) (p : Nat) : V.ref p ∉ v.subs := by
  rcases plain_out env m k hk v v h with hs | ⟨l, rfl, hl⟩
  · exact scalar_subs hs p
  · simp only [V.subs, List.mem_cons, reduceCtorEq, false_or, mem_subss, not_exists, not_and]
    exact fun w hw => scalar_subs (hl w hw) p

/-- the arguments that take any value have these names -/
theorem table_free : ∀ e ∈ table, ∀ a ∈ e.2.args, a.kind = .raw ∨ a.kind = .probabilities ∨ a.kind = .quantities → a.name ∈ freeNames := by
  decide +kernel

theorem eargs_free (c : ECls) : ∀ a ∈ eargs c, a.kind = .raw ∨ a.kind = .probabilities ∨ a.kind = .quantities → a.name ∈ freeNames := by
  cases c <;> decide +kernel

/-- where entities may occur, by the kind of the attribute -/
theorem conv_refs {env : Env} {m : Mem} {k : Kind} (hr : rangeOk k) {v : V} (h : conv env m k v = .ok v) {p : Nat} (hp : V.ref p ∈ v.subs) :
    (k = .raw ∨ k = .probabilities ∨ k = .quantities) ∨ (∃ cs, k = .target cs ∧ isCls m cs (.ref p) = true) ∨
    (∃ ts t ns vs, ((∃ e, k = .obj ts e) ∨ k = .optObj ts ∨ k = .objList ts) ∧ t ∈ ts ∧ (v = .obj t ns vs ∨ ∃ l, v = .list l ∧ V.obj t ns vs ∈ l) ∧
      V.ref p ∈ (V.obj t ns vs).subs) ∨
    (∃ c, k = .ranges c ∧ (isCls m attributeTemplates (.ref p) = true ∨ ∃ l a t ns vs, v = .list l ∧ .list [a, .obj t ns vs] ∈ l ∧ t ∈ boundsTypes ∧
      V.ref p ∈ (V.obj t ns vs).subs)) := by
  by_cases hk : plainKind k = true
  · exact absurd hp (plain_subs hk h p)
  have typ : ∀ ts (w : V), isTyp ts w = true → ∃ t ns vs, w = .obj t ns vs ∧ t ∈ ts := by
    intro ts w hw
    cases w <;> simp [isTyp] at hw
    exact ⟨_, _, _, rfl, hw⟩
  cases k <;> simp [plainKind] at hk
  case raw => exact .inl (.inl rfl)
  case probabilities => exact .inl (.inr (.inl rfl))
  case quantities => exact .inl (.inr (.inr rfl))
  case target cs =>
    simp only [conv, convTarget] at h
    split at h
    · rename_i hc
      rcases hc with rfl | hc | hc
      · simp [V.subs] at hp
      · cases v <;> simp [isLink] at hc
        simp [V.subs] at hp
      · cases v <;> simp [isCls] at hc
        simp [V.subs] at hp
        subst hp
        exact .inr (.inl ⟨cs, rfl, by simpa [isCls] using hc⟩)
    · cases h
  case obj ts e =>
    right; right; left
    have : isTyp ts v = true := by
      simp only [conv, convObj] at h
      split at h
      · cases h
      · split at h
        · assumption
        · cases h
    obtain ⟨t, ns, vs, rfl, ht⟩ := typ _ _ this
    exact ⟨ts, t, ns, vs, .inl ⟨e, rfl⟩, ht, .inl rfl, hp⟩
  case optObj ts =>
    right; right; left
    have : v = .none ∨ isTyp ts v = true := by
      simp only [conv, convOptObj] at h
      split at h
      · left; assumption
      · split at h
        · right; assumption
        · cases h
    rcases this with rfl | this
    · simp [V.subs] at hp
    obtain ⟨t, ns, vs, rfl, ht⟩ := typ _ _ this
    exact ⟨ts, t, ns, vs, .inr (.inl rfl), ht, .inl rfl, hp⟩
  case objList ts =>
    right; right; left
    simp only [conv, convList] at h
    split at h
    · rename_i ha
      have e : V.list (members v) = v := by simpa using h
      cases v <;> simp at e
      rename_i l
      simp only [members, List.all_eq_true] at ha
      simp only [V.subs, List.mem_cons, reduceCtorEq, false_or, mem_subss] at hp
      obtain ⟨w, hw, hp⟩ := hp
      obtain ⟨t, ns, vs, rfl, ht⟩ := typ _ _ (ha w hw)
      exact ⟨ts, t, ns, vs, .inr (.inr rfl), ht, .inr ⟨l, rfl, hw⟩, hp⟩
    · cases h
  case ranges c =>
    right; right; right
    obtain ⟨l, rfl, hl⟩ := convRanges_out env m c hr v v h
    refine ⟨c, rfl, ?_⟩
    simp only [V.subs, List.mem_cons, reduceCtorEq, false_or, mem_subss] at hp
    obtain ⟨w, hw, hp⟩ := hp
    obtain ⟨a, b, rfl, ha, hb⟩ := hl w hw
    simp only [V.subs, subss, List.mem_cons, reduceCtorEq, false_or, List.mem_append, List.not_mem_nil, or_false] at hp
    rcases hp with hp | hp
    · left
      rcases ha with ha | ha
      · cases a <;> simp [isLink] at ha
        simp [V.subs] at hp
      · cases a <;> simp [isCls] at ha
        simp [V.subs] at hp
        subst hp
        simpa [isCls] using ha
    · right
      rcases hb with rfl | ⟨hb, _⟩
      · simp [V.subs] at hp
      · obtain ⟨t, ns, vs, rfl, ht⟩ := typ _ _ hb
        exact ⟨l, a, t, ns, vs, rfl, hw, ht, hp⟩

/-- an attribute of an object, and what entities may occur in it -/
theorem obj_field {env : Env} {m : Mem} {t : String} {ns : List String} {vs : List V} (ok : okV env m (.obj t ns vs)) {p : Nat}
    (hp : V.ref p ∈ (V.obj t ns vs).subs) :
    ∃ c, (t, c) ∈ table ∧ ∃ a v, a ∈ c.args ∧ (a.name, v) ∈ ns.zip vs ∧ okV env m v ∧ conv env m a.kind v = .ok v ∧ V.ref p ∈ v.subs ∧ rangeOk a.kind := by
  simp only [okV] at ok
  obtain ⟨⟨c, hc, rfl, hl, hcv, _⟩, hok⟩ := ok
  rw [okVs_iff] at hok
  simp only [V.subs, List.mem_cons, reduceCtorEq, false_or, mem_subss] at hp
  obtain ⟨v, hv, hp⟩ := hp
  obtain ⟨i, hi, rfl⟩ := List.getElem_of_mem hv
  have hl' : c.args.length = vs.length := by simpa [Cls.names] using hl.symm
  have hi' : i < c.args.length := by omega
  refine ⟨c, Dict.mem_of_get? hc, c.args[i], vs[i], List.getElem_mem hi', ?_, hok _ hv, ?_, hp, (table_kinds t c hc _ (List.getElem_mem hi')).1⟩
  · apply List.mem_of_getElem? (i := i)
    rw [List.getElem?_zip_eq_some]
    exact ⟨by simp [Cls.names, hi'], List.getElem?_eq_getElem hi⟩
  · apply hcv (c.args[i], vs[i])
    apply List.mem_of_getElem? (i := i)
    rw [List.getElem?_zip_eq_some]
    exact ⟨List.getElem?_eq_getElem hi', List.getElem?_eq_getElem hi⟩

/-- the types of the objects that may refer to entities -/
def attributeTypes : List String := ["property", "condition", "parameter"]

theorem table_leaf : ∀ e ∈ table, e.1 ∉ attributeTypes → e.1 ≠ "property_and_conditions" →
    ∀ a ∈ e.2.args, (match a.kind with | .target _ => false | .obj _ _ => false | .optObj _ => false | .objList _ => false | .ranges _ => false | _ => true) = true := by
  decide +kernel

theorem table_attr : ∀ e ∈ table, e.1 ∈ attributeTypes →
    ∀ a ∈ e.2.args, (match a.kind with
      | .target cs => decide (∀ c ∈ cs, c ∈ attributeTemplates) | .obj _ _ => false
      | .optObj ts => decide (∀ t ∈ ts, t ∉ attributeTypes ∧ t ≠ "property_and_conditions")
      | .objList ts => decide (∀ t ∈ ts, t ∉ attributeTypes ∧ t ≠ "property_and_conditions") | .ranges _ => false | _ => true) = true := by
  decide +kernel

theorem table_pac : ∀ e ∈ table, e.1 = "property_and_conditions" →
    ∀ a ∈ e.2.args, (match a.kind with
      | .target cs => false | .obj ts _ => decide (∀ t ∈ ts, t ∈ attributeTypes)
      | .optObj ts => false | .objList ts => decide (∀ t ∈ ts, t ∈ attributeTypes) | .ranges _ => false | _ => true) = true := by
  decide +kernel

theorem not_free {k : Kind} {a : String} {v : V} {t : String} {ns : List String} {vs : List V} {p : Nat} (hp : V.ref p ∈ v.subs) (hz : (a, v) ∈ ns.zip vs)
    (hf : FreeInside (.obj t ns vs)) (h : k = .raw ∨ k = .probabilities ∨ k = .quantities → a ∈ freeNames) : ¬ (k = .raw ∨ k = .probabilities ∨ k = .quantities) :=
  fun hk => hf t ns vs (self_mem_subs _) (a, v) hz (h hk) p hp

theorem FreeInside.sub {v w : V} (h : FreeInside v) (hw : w ∈ v.subs) : FreeInside w :=
  fun t ns vs ho => h t ns vs (subs_trans v w hw _ ho)

theorem field_subs {ns : List String} {vs : List V} {a : String} {v : V} (t : String) (h : (a, v) ∈ ns.zip vs) : v ∈ (V.obj t ns vs).subs := by
  simp only [V.subs, List.mem_cons, mem_subss]
  exact .inr ⟨v, (List.of_mem_zip h).2, self_mem_subs _⟩

/-- objects other than attributes refer to no entity -/
theorem leaf_refs {env : Env} {m : Mem} {t : String} {ns : List String} {vs : List V} (ok : okV env m (.obj t ns vs)) (hf : FreeInside (.obj t ns vs))
    (h1 : t ∉ attributeTypes) (h2 : t ≠ "property_and_conditions") (p : Nat) : V.ref p ∉ (V.obj t ns vs).subs := by
  intro hp
  obtain ⟨c, hc, a, v, ha, hz, hok, hcv, hpv, hr⟩ := obj_field ok hp
  have hk := table_leaf _ hc h1 h2 a ha
  rcases conv_refs hr hcv hpv with hfr | ⟨cs, e, _⟩ | ⟨ts, _, _, _, e, _⟩ | ⟨c, e, _⟩
  · exact not_free hpv hz hf (table_free _ hc a ha) hfr
  · simp [e] at hk
  · rcases e with ⟨_, e⟩ | e | e <;> simp [e] at hk
  · simp [e] at hk

/-- attributes refer to attribute templates only -/
theorem attr_refs {env : Env} {m : Mem} {t : String} {ns : List String} {vs : List V} (ok : okV env m (.obj t ns vs)) (hf : FreeInside (.obj t ns vs))
    (h1 : t ∈ attributeTypes) (p : Nat) (hp : V.ref p ∈ (V.obj t ns vs).subs) : isCls m attributeTemplates (.ref p) = true := by
  obtain ⟨c, hc, a, v, ha, hz, hok, hcv, hpv, hr⟩ := obj_field ok hp
  have hk := table_attr _ hc h1 a ha
  rcases conv_refs hr hcv hpv with hfr | ⟨cs, e, hcl⟩ | ⟨ts, t', ns', vs', e, ht, hv, hpo⟩ | ⟨c, e, _⟩
  · exact absurd hfr (not_free hpv hz hf (table_free _ hc a ha))
  · simp only [e, decide_eq_true_eq] at hk
    simp only [isCls] at hcl ⊢
    split at hcl
    · rename_i x hx
      simpa [hx] using hk _ (by simpa using hcl)
    · cases hcl
  · have ht' : t' ∉ attributeTypes ∧ t' ≠ "property_and_conditions" := by
      rcases e with ⟨_, e⟩ | e | e <;> simp [e] at hk
      · exact hk t' ht
      · exact hk t' ht
    have hfv := hf.sub (field_subs t hz)
    rcases hv with rfl | ⟨l, rfl, hm⟩
    · exact absurd hpo (leaf_refs hok hfv ht'.1 ht'.2 p)
    · simp only [okV, okVs_iff] at hok
      exact absurd hpo (leaf_refs (hok _ hm) (hfv.sub (by simp only [V.subs, List.mem_cons, mem_subss]; exact .inr ⟨_, hm, self_mem_subs _⟩)) ht'.1 ht'.2 p)
  · simp [e] at hk

/-- objects refer to attribute templates only -/
theorem obj_refs {env : Env} {m : Mem} {t : String} {ns : List String} {vs : List V} (ok : okV env m (.obj t ns vs)) (hf : FreeInside (.obj t ns vs))
    (p : Nat) (hp : V.ref p ∈ (V.obj t ns vs).subs) : isCls m attributeTemplates (.ref p) = true := by
  by_cases h1 : t ∈ attributeTypes
  · exact attr_refs ok hf h1 p hp
  by_cases h2 : t = "property_and_conditions"
  · obtain ⟨c, hc, a, v, ha, hz, hok, hcv, hpv, hr⟩ := obj_field ok hp
    have hk := table_pac _ hc h2 a ha
    have hfv := hf.sub (field_subs t hz)
    rcases conv_refs hr hcv hpv with hfr | ⟨cs, e, hcl⟩ | ⟨ts, t', ns', vs', e, ht, hv, hpo⟩ | ⟨c, e, _⟩
    · exact absurd hfr (not_free hpv hz hf (table_free _ hc a ha))
    · simp [e] at hk
    · have ht' : t' ∈ attributeTypes := by
        rcases e with ⟨_, e⟩ | e | e <;> simp [e] at hk
        · exact hk t' ht
        · exact hk t' ht
      rcases hv with rfl | ⟨l, rfl, hm⟩
      · exact attr_refs hok hfv ht' p hpo
      · simp only [okV, okVs_iff] at hok
        exact attr_refs (hok _ hm) (hfv.sub (by simp only [V.subs, List.mem_cons, mem_subss]; exact .inr ⟨_, hm, self_mem_subs _⟩)) ht' p hpo
    · simp [e] at hk
  · exact absurd hp (leaf_refs ok hf h1 h2 p)

/-! ## Entities -/

open Verif.Substitute in
theorem eargs_order (c : ECls) : ∀ a ∈ eargs c, (match a.kind with
      | .target cs => decide (∀ c' ∈ cs, sortOrder c' < sortOrder c)
      | .obj ts _ => decide (∀ t ∈ ts, t ∉ attributeTypes ∧ t ≠ "property_and_conditions")
      | .optObj ts => decide (0 < sortOrder c) | .objList ts => decide (0 < sortOrder c) | .ranges _ => decide (0 < sortOrder c) | _ => true) = true := by
  cases c <;> decide +kernel

theorem bounds_leaf : ∀ t ∈ boundsTypes, t ∉ attributeTypes ∧ t ≠ "property_and_conditions" := by decide +kernel

theorem isCls_ref {m : Mem} {cs : List ECls} {p : Nat} (h : isCls m cs (.ref p) = true) : ∃ y, m[p]? = some y ∧ y.cls ∈ cs := by
  simp only [isCls] at h
  split at h
  · rename_i x hx; exact ⟨x, hx, by simpa using h⟩
  · cases h

open Verif.Substitute in
theorem attributeTemplates_order : ∀ c ∈ attributeTemplates, sortOrder c = 0 := by decide +kernel

/-- the attributes of an entity refer to entities that are written before it -/
theorem arg_refs {env : Env} {m : Mem} {c : ECls} {a : EArg} (ha : a ∈ eargs c) {v : V} (hok : okV env m v) (hcv : conv env m a.kind v = .ok v)
    (hf : FreePlain [(a.name, v)]) (hi : FreeInside v) {p : Nat} (hp : V.ref p ∈ v.subs) :
    ∃ y, m[p]? = some y ∧ Substitute.sortOrder y.cls < Substitute.sortOrder c := by
  have hk := eargs_order c a ha
  have tmpl : isCls m attributeTemplates (.ref p) = true → 0 < Substitute.sortOrder c →
      ∃ y, m[p]? = some y ∧ Substitute.sortOrder y.cls < Substitute.sortOrder c := by
    intro h h0
    obtain ⟨y, hy, hc⟩ := isCls_ref h
    exact ⟨y, hy, by rw [attributeTemplates_order _ hc]; exact h0⟩
  have inList : ∀ {l : List V} {w : V}, w ∈ l → w ∈ (V.list l).subs := by
    intro l w hm
    simp only [V.subs, List.mem_cons, mem_subss]
    exact .inr ⟨w, hm, self_mem_subs _⟩
  rcases conv_refs (eargs_kinds c a ha).1 hcv hp with hfr | ⟨cs, e, hcl⟩ | ⟨ts, t', ns', vs', e, ht, hv, hpo⟩ | ⟨c', e, hv⟩
  · exact absurd hp (hf (a.name, v) (by simp) (eargs_free c a ha hfr) p)
  · simp only [e, decide_eq_true_eq] at hk
    obtain ⟨y, hy, hc⟩ := isCls_ref hcl
    exact ⟨y, hy, hk _ hc⟩
  · have key : isCls m attributeTemplates (.ref p) = true := by
      rcases hv with rfl | ⟨l, rfl, hm⟩
      · exact obj_refs hok hi p hpo
      · simp only [okV, okVs_iff] at hok
        exact obj_refs (hok _ hm) (hi.sub (inList hm)) p hpo
    rcases e with ⟨e', e⟩ | e | e <;> simp only [e, decide_eq_true_eq] at hk
    · obtain ⟨h1, h2⟩ := hk t' ht
      rcases hv with rfl | ⟨l, rfl, hm⟩
      · exact absurd hpo (leaf_refs hok hi h1 h2 p)
      · simp only [okV, okVs_iff] at hok
        exact absurd hpo (leaf_refs (hok _ hm) (hi.sub (inList hm)) h1 h2 p)
    · exact tmpl key hk
    · exact tmpl key hk
  · simp only [e, decide_eq_true_eq] at hk
    rcases hv with hv | ⟨l, b, t', ns', vs', rfl, hm, ht, hpo⟩
    · exact tmpl hv hk
    · obtain ⟨h1, h2⟩ := bounds_leaf t' ht
      have ho : okV env m (.obj t' ns' vs') := by
        simp only [okV, okVs_iff] at hok
        have := hok _ hm
        simp only [okV, okVs_iff] at this
        exact this _ (by simp)
      exact absurd hpo (leaf_refs ho ((hi.sub (inList hm)).sub (inList (by simp))) h1 h2 p)

/-- In a well-typed memory the entities occurring in the attributes of an entity (those that `as_dict` shows) exist, and are of classes that
are written before its own. -/
theorem forward_refs {env : Env} {m : Mem} (hT : WellTyped env m) {o : Nat} {x : EObj} (hx : m[o]? = some x) (hf : FreePlain (asDict m x))
    (hi : ∀ f ∈ asDict m x, FreeInside f.2) {f : String × V} (hfm : f ∈ asDict m x) {p : Nat} (hp : V.ref p ∈ f.2.subs) :
    ∃ y, m[p]? = some y ∧ Substitute.sortOrder y.cls < Substitute.sortOrder x.cls := by
  obtain ⟨vals, own, hs, hown⟩ := hT o x hx
  have hd := asDict_eq hs m
  have hfm' := hfm
  rw [hd] at hfm'
  simp only [List.mem_cons, List.mem_append] at hfm'
  rcases hfm' with rfl | rfl | h | h
  · simp [V.subs] at hp
  · simp only [uidsDict, V.subs, List.mem_cons, reduceCtorEq, false_or, List.mem_append, mem_subss] at hp
    rcases hp with ⟨w, hw, hp⟩ | ⟨w, hw, hp⟩ <;> (obtain ⟨u, _, rfl⟩ := List.mem_map.1 hw; simp [V.subs] at hp)
  · have hz : f ∈ (((eargs x.cls).zip vals).map (fun e => (e.1.name, e.2))) := by
      rw [List.zip_map_left] at h
      exact h
    obtain ⟨e, he, rfl⟩ := List.mem_map.1 hz
    have hm := List.of_mem_zip (a := e.1) (b := e.2) he
    exact arg_refs hm.1 (hs.ok _ hm.2) (hs.conv e he) (by intro g hg; simp at hg; subst hg; exact hf _ hfm) (hi _ hfm) hp
  · by_cases hc : x.cls = .ingredientRun
    · obtain ⟨name, labels, e, h1, h2⟩ := ingredientPart_eq hT hs hc (hown hc)
      rw [e] at h
      simp only [List.mem_cons, List.not_mem_nil, or_false] at h
      rcases h with rfl | rfl
      · rcases h1 with h1 | h1
        · simp [h1, V.subs] at hp
        · exact absurd hp (scalar_subs (isStr_scalar h1) p)
      · rcases h2 with h2 | ⟨l, h2, hl⟩
        · simp [h2, V.subs] at hp
        · rw [h2] at hp
          simp only [V.subs, List.mem_cons, reduceCtorEq, false_or, mem_subss] at hp
          obtain ⟨w, hw, hp⟩ := hp
          exact absurd hp (scalar_subs (isStr_scalar (hl w hw)) p)
    · unfold ingredientPart at h
      rw [if_neg hc] at h
      simp at h

end Verif.Json
