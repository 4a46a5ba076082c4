import Verif.Model.Value
import Verif.Props.Traverse
/-!
# C36-C37: traversals of object graphs
-/
set_option linter.unusedSimpArgs false
set_option linter.unusedSectionVars false
set_option linter.unusedVariables false

namespace Verif.Value
open Verif.Py Verif.Traverse

/-! ## Values -/

theorem norms_eq (l : List V) : norms l = l.map V.norm := by
  induction l with
  | nil => rfl
  | cons v vs ih => simp [norms, ih]

theorem sizes_eq (l : List V) : sizes l = (l.map V.size).sum := by
  induction l with
  | nil => rfl
  | cons v vs ih => simp [sizes, ih]

theorem mem_subss {l : List V} {x : V} : x ∈ subss l ↔ ∃ v ∈ l, x ∈ v.subs := by
  induction l with
  | nil => simp [subss]
  | cons v vs ih => simp [subss, ih]

theorem self_mem_subs (v : V) : v ∈ v.subs := by
  cases v <;> simp [V.subs]

theorem size_pos (v : V) : 0 < v.size := by
  cases v <;> simp only [V.size] <;> omega

/-- what is directly inside a value (not looking into entities) -/
def inner : V → List V
  | .list l => l
  | .tuple l => l
  | .dict ks vs => ks ++ vs
  | .obj _ ns vs => (ns.zip vs).map Prod.snd
  | .link s i => [.str s, .str i]
  | _ => []

theorem mem_zip_snd {ns : List String} {vs : List V} {y : V} (h : y ∈ (ns.zip vs).map Prod.snd) : y ∈ vs := by
  rw [List.mem_map] at h
  obtain ⟨p, hp, rfl⟩ := h
  exact (List.of_mem_zip (a := p.1) (b := p.2) hp).2

mutual
theorem subs_closed (v : V) : ∀ x ∈ v.subs, ∀ y ∈ inner x, y ∈ v.subs := by
  intro x hx y hy
  cases v with
  | list l =>
    simp only [V.subs, List.mem_cons] at hx ⊢
    right
    rcases hx with rfl | hx
    · exact mem_subss.mpr ⟨y, hy, self_mem_subs y⟩
    · exact subss_closed l x hx y hy
  | tuple l =>
    simp only [V.subs, List.mem_cons] at hx ⊢
    right
    rcases hx with rfl | hx
    · exact mem_subss.mpr ⟨y, hy, self_mem_subs y⟩
    · exact subss_closed l x hx y hy
  | dict ks vs =>
    simp only [V.subs, List.mem_cons, List.mem_append] at hx ⊢
    right
    rcases hx with rfl | hx | hx
    · simp only [inner, List.mem_append] at hy
      exact hy.imp (fun h => mem_subss.mpr ⟨y, h, self_mem_subs y⟩) (fun h => mem_subss.mpr ⟨y, h, self_mem_subs y⟩)
    · exact Or.inl (subss_closed ks x hx y hy)
    · exact Or.inr (subss_closed vs x hx y hy)
  | obj t ns vs =>
    simp only [V.subs, List.mem_cons] at hx ⊢
    right
    rcases hx with rfl | hx
    · exact mem_subss.mpr ⟨y, mem_zip_snd hy, self_mem_subs y⟩
    · exact subss_closed vs x hx y hy
  | link s i =>
    simp only [V.subs, List.mem_cons, List.not_mem_nil, or_false] at hx ⊢
    rcases hx with rfl | rfl | rfl
    · simp only [inner, List.mem_cons, List.not_mem_nil, or_false] at hy; exact Or.inr hy
    · simp [inner] at hy
    · simp [inner] at hy
  | _ =>
    simp only [V.subs, List.mem_cons, List.not_mem_nil, or_false] at hx
    subst hx
    simp [inner] at hy
theorem subss_closed (l : List V) : ∀ x ∈ subss l, ∀ y ∈ inner x, y ∈ subss l := by
  intro x hx y hy
  cases l with
  | nil => simp [subss] at hx
  | cons v vs =>
    simp only [subss, List.mem_append] at hx ⊢
    exact hx.imp (fun h => subs_closed v x h y hy) (fun h => subss_closed vs x h y hy)
end

theorem inner_size (v : V) : ((inner v).map V.size).sum < v.size ∨ ∃ s i, v = .link s i := by
  cases v with
  | list l => left; simp only [inner, V.size, sizes_eq]; omega
  | tuple l => left; simp only [inner, V.size, sizes_eq]; omega
  | dict ks vs => left; simp only [inner, V.size, sizes_eq, List.map_append, List.sum_append]; omega
  | obj t ns vs =>
    left
    simp only [inner, V.size, sizes_eq]
    have : ∀ (ns : List String) (vs : List V), (((ns.zip vs).map Prod.snd).map V.size).sum ≤ (vs.map V.size).sum := by
      intro ns
      induction ns with
      | nil => intro vs; simp
      | cons n ns ih =>
        intro vs
        cases vs with
        | nil => simp
        | cons v vs => simp only [List.zip_cons_cons, List.map_cons, List.sum_cons]; have := ih vs; omega
    have := this ns vs
    omega
  | link s i => exact Or.inr ⟨s, i, rfl⟩
  | _ => left; simp [inner, V.size]

/-! ## Hashing -/

theorem memberHash_eq (v : V) : memberHash v v.hash = v.hash ∨ (v.hash = .unhashable ∧ memberHash v v.hash = .raises) := by
  cases v <;> simp [memberHash, V.hash]

theorem hash_key {v k : V} (h : v.hash = .key k) : k = v.norm := by
  cases v <;> simp only [V.hash, Hash.key.injEq, reduceCtorEq] at h
  case tuple l =>
    split at h <;> simp only [Hash.key.injEq, reduceCtorEq] at h
    rw [← h]; rfl
  all_goals exact h.symm

/-- the members of a hashed tuple are hashed -/
theorem hashes_key {l : List V} {k : V} (h : hashes l = .key k) : ∀ z ∈ l, z.hash = .key z.norm := by
  induction l generalizing k with
  | nil => simp
  | cons v vs ih =>
    simp only [hashes] at h
    split at h
    · rename_i k' hv
      intro z hz
      rcases List.mem_cons.mp hz with rfl | hz
      · rcases memberHash_eq z with e | ⟨_, e⟩
        · rw [e] at hv; rw [hv, hash_key hv]
        · rw [e] at hv; cases hv
      · exact ih h z hz
    · split at h <;> cases h
    · cases h

/-- the members of a hashed value -/
theorem hash_members {v k : V} (h : v.hash = .key k) : ∀ z ∈ inner v, z.hash = .key z.norm := by
  cases v with
  | tuple l =>
    simp only [V.hash] at h
    split at h
    · rename_i k' hk; exact hashes_key hk
    · cases h
    · cases h
  | link s i =>
    intro z hz
    simp only [inner, List.mem_cons, List.not_mem_nil, or_false] at hz
    rcases hz with rfl | rfl <;> simp [V.hash, V.norm]
  | list l => simp [V.hash] at h
  | dict ks vs => simp [V.hash] at h
  | obj t ns vs => simp [V.hash] at h
  | _ => simp [inner]

/-- a hashed value is an entity, a pair-like thing, or has nothing inside -/
theorem norm_cases {v k : V} (h : v.hash = .key k) :
    (∃ o, v = .ref o ∧ k = .ref o) ∨ (k = .tuple ((inner v).map V.norm) ∧ ∀ o, v ≠ .ref o) ∨
      (inner v = [] ∧ (∀ l, k ≠ .tuple l) ∧ (∀ o, k ≠ .ref o) ∧ ∀ o, v ≠ .ref o) := by
  have hk := hash_key h
  subst hk
  cases v with
  | ref o => exact Or.inl ⟨o, rfl, rfl⟩
  | tuple l => right; left; simp [V.norm, inner, norms_eq]
  | link s i => right; left; simp [V.norm, inner]
  | list l => simp [V.hash] at h
  | dict ks vs => simp [V.hash] at h
  | obj t ns vs => simp [V.hash] at h
  | _ => right; right; simp [V.norm, inner]

/-- what the traversals push for a value agrees with what is inside -/
structure KidsOk (m : Mem) (kids : V → List V) : Prop where
  sub : ∀ v y, y ∈ kids v → y ∈ kidsForeach m v
  plain : ∀ v, (∀ o, v ≠ .ref o) → ∀ y, y ∈ inner v → y ∈ kids v
  size : ∀ v, (∀ o, v ≠ .ref o) → ((kids v).map V.size).sum = ((inner v).map V.size).sum

theorem kidsForeach_inner (m : Mem) {v : V} (h : ∀ o, v ≠ .ref o) : kidsForeach m v = inner v := by
  cases v <;> simp [kidsForeach, inner]
  exact absurd rfl (h _)

theorem le_sum_size {v : V} {l : List V} (h : v ∈ l) : v.size ≤ (l.map V.size).sum := by
  induction l with
  | nil => cases h
  | cons a l ih =>
    simp only [List.map_cons, List.sum_cons]
    rcases List.mem_cons.mp h with rfl | h
    · omega
    · have := ih h; omega

/-- no tuple contains a list or a dictionary -/
def FlatTuples (kids : V → List V) (root : V) : Prop :=
  ∀ l, Reach kids root (.tuple l) → ∀ w ∈ l, (∀ l', w ≠ .list l') ∧ ∀ ks vs, w ≠ .dict ks vs

theorem hash_total {m : Mem} {kids : V → List V} (ok : KidsOk m kids) {root : V} (ft : FlatTuples kids root) :
    ∀ (n : Nat) (x : V), x.size ≤ n → Reach kids root x → x.hash ≠ .raises := by
  intro n
  induction n with
  | zero => intro x hx; have := size_pos x; omega
  | succ n ih =>
    intro x hx hr
    cases x with
    | tuple l =>
      have key : ∀ l' : List V, (∀ z ∈ l', z ∈ l) → hashes l' ≠ .raises := by
        intro l'
        induction l' with
        | nil => intro _; simp [hashes]
        | cons v vs ihl =>
          intro hsub
          have h1 := ihl (fun z hz => hsub z (List.mem_cons_of_mem _ hz))
          have hv := hsub v List.mem_cons_self
          have hvs : v.size ≤ n := by
            have : v.size ≤ (l.map V.size).sum := le_sum_size hv
            simp only [V.size, sizes_eq] at hx; omega
          have h2 := ih v hvs (hr.snoc (ok.plain _ (by intro o; simp) v hv))
          have h3 := ft l hr v hv
          have h4 : memberHash v v.hash ≠ .raises := by
            cases v <;> simp_all [memberHash]
          intro h6
          simp only [hashes] at h6
          split at h6
          · exact h1 h6
          · cases h6
          · rename_i h5; exact absurd h5 h4
      have := key l (fun _ h => h)
      simp only [V.hash]
      split <;> simp_all
    | _ => simp [V.hash]

/-- the converse: a tuple with a list or a dictionary among its elements cannot be hashed -/
theorem hash_raises {l : List V} {w : V} (hw : w ∈ l) (h : (∃ l', w = .list l') ∨ ∃ ks vs, w = .dict ks vs) :
    (V.tuple l).hash = .raises := by
  have hm : memberHash w w.hash = .raises := by
    rcases h with ⟨l', rfl⟩ | ⟨ks, vs, rfl⟩ <;> rfl
  have key : hashes l = .raises := by
    induction l with
    | nil => cases hw
    | cons v vs ih =>
      simp only [hashes]
      rcases List.mem_cons.mp hw with rfl | hw
      · rw [hm]
      · rw [ih hw]
        cases memberHash v v.hash <;> rfl
  simp only [V.hash, key]

theorem raises_iff {m : Mem} {kids : V → List V} (ok : KidsOk m kids) {root : V} :
    (∃ x, Reach kids root x ∧ x.hash = .raises) ↔ ¬ FlatTuples kids root := by
  constructor
  · rintro ⟨x, hx, hr⟩ ft
    exact hash_total ok ft x.size x (Nat.le_refl _) hx hr
  · intro h
    apply Classical.byContradiction
    intro hn
    apply h
    intro l hl w hw
    refine ⟨fun l' e => hn ⟨_, hl, hash_raises hw (Or.inl ⟨l', e⟩)⟩, fun ks vs e => hn ⟨_, hl, hash_raises hw (Or.inr ⟨ks, vs, e⟩)⟩⟩

theorem field_mem {m : Mem} {o : Nat} {y : V} (h : y ∈ kidsForeach m (.ref o)) :
    y ∈ m.flatMap (fun x => subss (x.fields.map Prod.snd)) := by
  simp only [kidsForeach] at h
  split at h
  · rename_i x hx
    rw [List.mem_flatMap]
    exact ⟨x, List.mem_of_getElem? hx, mem_subss.mpr ⟨y, h, self_mem_subs y⟩⟩
  · cases h

/-- everything reachable is inside the root or inside a field -/
theorem reach_finite {m : Mem} {kids : V → List V} (ok : KidsOk m kids) {root x : V} (h : Reach kids root x) :
    x ∈ root.subs ++ m.flatMap (fun x => subss (x.fields.map Prod.snd)) := by
  have key : ∀ a b, Reach kids a b → a ∈ root.subs ++ m.flatMap (fun x => subss (x.fields.map Prod.snd)) →
      b ∈ root.subs ++ m.flatMap (fun x => subss (x.fields.map Prod.snd)) := by
    intro a b hab
    induction hab with
    | refl _ => exact id
    | @step a c b hm _ ih =>
      intro ha
      apply ih
      have hc := ok.sub a c hm
      by_cases hr : ∃ o, a = .ref o
      · obtain ⟨o, rfl⟩ := hr
        exact List.mem_append_right _ (field_mem hc)
      · have hn : ∀ o, a ≠ .ref o := fun o h => hr ⟨o, h⟩
        rw [kidsForeach_inner m hn] at hc
        rcases List.mem_append.mp ha with h | h
        · exact List.mem_append_left _ (subs_closed root a h c hc)
        · apply List.mem_append_right
          rw [List.mem_flatMap] at h ⊢
          obtain ⟨e, he, h⟩ := h
          exact ⟨e, he, subss_closed _ a h c hc⟩
  exact key root x h (List.mem_append_left _ (self_mem_subs root))

/-- the graphs of both traversals are regular -/
theorem regular {σ : Type} {m : Mem} (G : Graph σ V V) (hh : G.hash = V.hash) {n : Nat} (he : G.entity = isEntity n) {kids : V → List V}
    (ok : KidsOk m kids) (root : V) : Regular G kids root := by
  refine ⟨?_, ?_, ?_, ?_, ?_⟩
  · intro x hx
    rw [he] at hx
    cases x <;> simp [isEntity] at hx
    rename_i o
    exact ⟨.ref o, by rw [hh]; simp [V.hash, V.norm]⟩
  · intro x y k hx hy hex
    rw [he] at hex
    rw [hh] at hx hy
    cases x <;> simp [isEntity] at hex
    rename_i o
    have h1 := hash_key hx
    subst h1
    have hy' : (V.ref o).norm = .ref o := rfl
    rw [hy'] at hy
    rcases norm_cases hy with ⟨o', h1, h2⟩ | ⟨h1, _⟩ | ⟨_, _, h1, _⟩
    · cases h2; exact h1.symm
    · cases h1
    · exact absurd rfl (h1 o)
  · intro x y k hx hy
    rw [hh] at hx hy
    rcases norm_cases hx with ⟨o, rfl, rfl⟩ | ⟨hk, hnx⟩ | ⟨hin, hk1, hk2, hnx⟩
    · rcases norm_cases hy with ⟨o', h1, h2⟩ | ⟨h1, _⟩ | ⟨_, _, h1, _⟩
      · cases h2; exact Or.inl h1.symm
      · cases h1
      · exact absurd rfl (h1 o)
    · right
      subst hk
      rcases norm_cases hy with ⟨o', _, h2⟩ | ⟨hk', hny⟩ | ⟨_, h1, _, _⟩
      · cases h2
      · intro z hz
        have hz' := ok.sub y z hz
        rw [kidsForeach_inner m hny] at hz'
        simp only [V.tuple.injEq] at hk'
        have : z.norm ∈ (inner x).map V.norm := by rw [hk']; exact List.mem_map_of_mem hz'
        obtain ⟨z', hz1, hz2⟩ := List.mem_map.mp this
        refine ⟨z', ok.plain x hnx z' hz1, z.norm, ?_, ?_⟩
        · rw [hh]; exact hash_members hy z hz'
        · rw [hh, ← hz2]; exact hash_members hx z' hz1
      · exact absurd rfl (h1 _)
    · right
      rcases norm_cases hy with ⟨o', _, h2⟩ | ⟨hk', _⟩ | ⟨hin', _, _, hny⟩
      · exact absurd h2 (hk2 o')
      · exact absurd hk' (hk1 _)
      · intro z hz
        have hz' := ok.sub y z hz
        rw [kidsForeach_inner m hny, hin'] at hz'
        cases hz'
  · refine ⟨(root.subs ++ m.flatMap (fun x => subss (x.fields.map Prod.snd))).map V.norm, ?_⟩
    intro x k hr hx
    rw [hh] at hx
    rw [hash_key hx]
    exact List.mem_map_of_mem (reach_finite ok hr)
  · refine ⟨V.size, ?_⟩
    intro x hr
    refine ⟨size_pos x, ?_⟩
    intro hu
    rw [hh] at hu
    have hn : ∀ o, x ≠ .ref o := by rintro o rfl; simp [V.hash] at hu
    rw [ok.size x hn]
    rcases inner_size x with h | ⟨s, i, rfl⟩
    · exact h
    · simp [V.hash] at hu

/-! ## Specification: what is reachable -/

/-- `Child m uni v w`: `w` is an element, a key, a value or an attribute of `v`; with `uni`, back references are not followed -/
inductive Child (m : Mem) (uni : Bool) : V → V → Prop where
  | list {l : List V} {w : V} : w ∈ l → Child m uni (.list l) w
  | tuple {l : List V} {w : V} : w ∈ l → Child m uni (.tuple l) w
  | key {ks vs : List V} {w : V} : w ∈ ks → Child m uni (.dict ks vs) w
  | value {ks vs : List V} {w : V} : w ∈ vs → Child m uni (.dict ks vs) w
  | attr {t : String} {ns : List String} {vs : List V} {n : String} {w : V} : (n, w) ∈ ns.zip vs → Child m uni (.obj t ns vs) w
  | scope {s i : String} : Child m uni (.link s i) (.str s)
  | id {s i : String} : Child m uni (.link s i) (.str i)
  | field {o : Nat} {x : EObj} {n : String} {w : V} : m[o]? = some x → (n, w) ∈ x.fields → ¬ (uni = true ∧ n ∈ skip x.cls) →
      Child m uni (.ref o) w

/-- reachable through any number of steps -/
inductive Reachable (m : Mem) (uni : Bool) : V → V → Prop where
  | refl (v : V) : Reachable m uni v v
  | step {u v w : V} : Reachable m uni u v → Child m uni v w → Reachable m uni u w

theorem mem_insertField {f g : String × V} {l : List (String × V)} : g ∈ insertField f l ↔ g = f ∨ g ∈ l := by
  induction l with
  | nil => simp [insertField]
  | cons h hs ih =>
    simp only [insertField]
    split
    · simp
    · simp only [List.mem_cons, ih]
      constructor
      · rintro (h | h | h)
        · exact Or.inr (Or.inl h)
        · exact Or.inl h
        · exact Or.inr (Or.inr h)
      · rintro (h | h | h)
        · exact Or.inr (Or.inl h)
        · exact Or.inl h
        · exact Or.inr (Or.inr h)

theorem mem_sortFields {g : String × V} {l : List (String × V)} : g ∈ sortFields l ↔ g ∈ l := by
  induction l with
  | nil => simp [sortFields]
  | cons h hs ih => simp [sortFields, mem_insertField, ih]

theorem sum_sortFields (l : List (String × V)) : (((sortFields l).map Prod.snd).map V.size).sum = ((l.map Prod.snd).map V.size).sum := by
  have ins : ∀ (f : String × V) (l : List (String × V)), (((insertField f l).map Prod.snd).map V.size).sum =
      f.2.size + ((l.map Prod.snd).map V.size).sum := by
    intro f l
    induction l with
    | nil => simp [insertField]
    | cons h hs ih =>
      simp only [insertField]
      split
      · simp
      · simp only [List.map_cons, List.sum_cons, ih]; omega
  induction l with
  | nil => rfl
  | cons h hs ih => simp only [sortFields, ins, ih, List.map_cons, List.sum_cons]

theorem mem_kidsForeach {m : Mem} {v w : V} : w ∈ kidsForeach m v ↔ Child m false v w := by
  constructor
  · intro h
    cases v <;> simp only [kidsForeach] at h
    case list l => exact .list h
    case tuple l => exact .tuple h
    case dict ks vs => exact (List.mem_append.mp h).elim .key .value
    case obj t ns vs =>
      obtain ⟨p, hp, rfl⟩ := List.mem_map.mp h
      exact .attr (n := p.1) hp
    case link s i =>
      simp only [List.mem_cons, List.not_mem_nil, or_false] at h
      rcases h with rfl | rfl
      · exact .scope
      · exact .id
    case ref o =>
      split at h
      · rename_i x hx
        obtain ⟨p, hp, rfl⟩ := List.mem_map.mp h
        exact .field hx (n := p.1) hp (by simp)
      · cases h
    all_goals cases h
  · intro h
    cases h with
    | list h => exact h
    | tuple h => exact h
    | key h => exact List.mem_append_left _ h
    | value h => exact List.mem_append_right _ h
    | attr h => exact List.mem_map.mpr ⟨_, h, rfl⟩
    | scope => simp [kidsForeach]
    | id => simp [kidsForeach]
    | field hx h _ => simp only [kidsForeach, hx]; exact List.mem_map.mpr ⟨_, h, rfl⟩

theorem mem_kidsFlatmap {m : Mem} {uni : Bool} {v w : V} : w ∈ kidsFlatmap uni m v ↔ Child m uni v w := by
  constructor
  · intro h
    cases v <;> simp only [kidsFlatmap] at h
    case list l => exact .list (List.mem_reverse.mp h)
    case tuple l => exact .tuple (List.mem_reverse.mp h)
    case dict ks vs => exact (List.mem_append.mp h).elim .key .value
    case obj t ns vs =>
      obtain ⟨p, hp, rfl⟩ := List.mem_map.mp h
      exact .attr (n := p.1) (mem_sortFields.mp hp)
    case link s i =>
      simp only [List.mem_cons, List.not_mem_nil, or_false] at h
      rcases h with rfl | rfl
      · exact .id
      · exact .scope
    case ref o =>
      split at h
      · rename_i x hx
        obtain ⟨p, hp, rfl⟩ := List.mem_map.mp h
        rw [List.mem_filter] at hp
        refine .field hx (n := p.1) (mem_sortFields.mp hp.1) ?_
        rintro ⟨h1, h2⟩
        have h3 := hp.2
        simp [h1, h2] at h3
      · cases h
    all_goals cases h
  · intro h
    cases h with
    | list h => exact List.mem_reverse.mpr h
    | tuple h => exact List.mem_reverse.mpr h
    | key h => exact List.mem_append_left _ h
    | value h => exact List.mem_append_right _ h
    | attr h => exact List.mem_map.mpr ⟨_, mem_sortFields.mpr h, rfl⟩
    | scope => simp [kidsFlatmap]
    | id => simp [kidsFlatmap]
    | @field o x n w hx h hn =>
      simp only [kidsFlatmap, hx]
      refine List.mem_map.mpr ⟨(n, w), List.mem_filter.mpr ⟨mem_sortFields.mpr h, ?_⟩, rfl⟩
      cases uni
      · rfl
      · simpa using hn

theorem child_mono {m : Mem} {uni : Bool} {v w : V} (h : Child m uni v w) : Child m false v w := by
  cases h with
  | list h => exact .list h
  | tuple h => exact .tuple h
  | key h => exact .key h
  | value h => exact .value h
  | attr h => exact .attr h
  | scope => exact .scope
  | id => exact .id
  | field hx h _ => exact .field hx h (by simp)

theorem reach_iff {m : Mem} {uni : Bool} {kids : V → List V} (hk : ∀ v w, w ∈ kids v ↔ Child m uni v w) {v w : V} :
    Reach kids v w ↔ Reachable m uni v w := by
  constructor
  · intro h
    have key : ∀ a b, Reach kids a b → ∀ r, Reachable m uni r a → Reachable m uni r b := by
      intro a b hab
      induction hab with
      | refl _ => exact fun _ h => h
      | step hm _ ih => exact fun r hr => ih r (.step hr ((hk _ _).mp hm))
    exact key v w h v (.refl v)
  · intro h
    induction h with
    | refl => exact .refl _
    | step _ hc ih => exact ih.snoc ((hk _ _).mpr hc)

theorem kidsOk_foreach (m : Mem) : KidsOk m (kidsForeach m) :=
  ⟨fun _ _ h => h, fun v hv y hy => by rw [kidsForeach_inner m hv]; exact hy, fun v hv => by rw [kidsForeach_inner m hv]⟩

theorem kidsOk_flatmap (m : Mem) (uni : Bool) : KidsOk m (kidsFlatmap uni m) := by
  refine ⟨fun v y h => mem_kidsForeach.mpr (child_mono (mem_kidsFlatmap.mp h)), ?_, ?_⟩
  · intro v hv y hy
    rw [← kidsForeach_inner m hv] at hy
    apply mem_kidsFlatmap.mpr
    have := mem_kidsForeach.mp hy
    cases this with
    | list h => exact .list h
    | tuple h => exact .tuple h
    | key h => exact .key h
    | value h => exact .value h
    | attr h => exact .attr h
    | scope => exact .scope
    | id => exact .id
    | field hx h _ => exact absurd rfl (hv _)
  · intro v hv
    cases v with
    | list l => simp [kidsFlatmap, inner, List.sum_reverse]
    | tuple l => simp [kidsFlatmap, inner, List.sum_reverse]
    | obj t ns vs => simp only [kidsFlatmap, inner]; exact sum_sortFields _
    | link s i => simp [kidsFlatmap, inner, V.size]
    | ref o => exact absurd rfl (hv o)
    | _ => rfl

/-! ## C36: recursive_foreach -/

/-- Hypothesis of the theorems below: no tuple in reach has a list or a dictionary among its elements. -/
def NoListInTuple (m : Mem) (uni : Bool) (root : V) : Prop :=
  ∀ l, Reachable m uni root (.tuple l) → ∀ w ∈ l, (∀ l', w ≠ .list l') ∧ ∀ ks vs, w ≠ .dict ks vs

/-- same entities with the same fields; only the uids may differ -/
def SameGraph (m m' : Mem) : Prop := m'.map (fun x => (x.cls, x.fields)) = m.map (fun x => (x.cls, x.fields))

theorem sameGraph_get {m m' : Mem} (h : SameGraph m m') (o : Nat) :
    (m'[o]?).map (fun x => (x.cls, x.fields)) = (m[o]?).map (fun x => (x.cls, x.fields)) := by
  have := congrArg (fun l => l[o]?) h
  simpa [List.getElem?_map] using this

theorem kidsForeach_congr {m m' : Mem} (h : SameGraph m m') (v : V) : kidsForeach m' v = kidsForeach m v := by
  cases v <;> simp only [kidsForeach]
  rename_i o
  have := sameGraph_get h o
  cases h1 : m'[o]? <;> cases h2 : m[o]? <;> simp [h1, h2] at this ⊢
  rw [this.2]

theorem kidsFlatmap_congr {m m' : Mem} (h : SameGraph m m') (uni : Bool) (v : V) : kidsFlatmap uni m' v = kidsFlatmap uni m v := by
  cases v <;> simp only [kidsFlatmap]
  rename_i o
  have := sameGraph_get h o
  cases h1 : m'[o]? <;> cases h2 : m[o]? <;> simp [h1, h2] at this ⊢
  rw [this.1, this.2]

theorem kidsForeach_inj {τ : Type} {m : Mem} (func : Mem × τ → V → Except PyErr (Mem × τ))
    (keeps : ∀ s x s', func s x = .ok s' → SameGraph s.1 s'.1) :
    ∀ (s : Mem × τ) (x : V) (s' : Mem × τ), func s x = .ok s' → (∀ y, kidsForeach s.1 y = kidsForeach m y) →
      ∀ y, kidsForeach s'.1 y = kidsForeach m y := by
  intro s x s' h hs y
  rw [kidsForeach_congr (keeps s x s' h), hs]

theorem isEntity_iff {n : Nat} {x : V} : isEntity n x = true ↔ ∃ o, o < n ∧ x = .ref o := by
  cases x <;> simp [isEntity]

/-- The order in which the entities are visited is determined by the graph alone: it is the same for every callback that does not rewire the graph, and for
both values of `apply_first`. -/
theorem visit_order {τ : Type} (m : Mem) (root : V) (flat : NoListInTuple m false root) :
    ∃ (n : Nat) (order : List V), order.Nodup ∧ (∀ x, x ∈ order ↔ (∃ o, o < m.length ∧ x = .ref o) ∧ Reachable m false root x) ∧
      ∀ (applyFirst : Bool) (func : Mem × τ → V → Except PyErr (Mem × τ)), (∀ s x s', func s x = .ok s' → SameGraph s.1 s'.1) →
        ∀ (t : τ), ∀ n' ≥ n, recursiveForeach (foreachGraph τ m.length) applyFirst func n' (m, t) root = some (calls func (m, t) order) := by
  have hk : ∀ v w, w ∈ kidsForeach m v ↔ Child m false v w := fun v w => mem_kidsForeach
  have ft : FlatTuples (kidsForeach m) root := fun l hl => flat l ((reach_iff hk).mp hl)
  obtain ⟨n, order, h1, h2, h3⟩ := foreach_order (foreachGraph τ m.length) (kidsForeach m) root
    (regular _ rfl (n := m.length) rfl (kidsOk_foreach m) root) (fun x hx => hash_total (kidsOk_foreach m) ft x.size x (Nat.le_refl _) hx)
  refine ⟨n, order, h1, ?_, fun applyFirst func keeps t => h3 applyFirst func (kidsForeach_inj func keeps) (m, t) (fun _ => rfl)⟩
  intro x
  rw [h2, reach_iff hk]
  exact and_congr_left (fun _ => isEntity_iff)

/-- C36. `recursive_foreach` ends, having applied the callback to exactly the entities in reach, once each - for every object graph,
cyclic or not, in which no tuple contains a list or dictionary (see the counterexamples below), and every callback (which may raise)
that does not itself rewire the graph. Missing for the full statement: tuples that contain lists, where the code raises TypeError. -/
theorem C36_visits_all_once_partial {τ : Type} (m : Mem) (t : τ) (root : V) (applyFirst : Bool)
    (func : Mem × τ → V → Except PyErr (Mem × τ)) (keeps : ∀ s x s', func s x = .ok s' → SameGraph s.1 s'.1)
    (flat : NoListInTuple m false root) :
    ∃ (n : Nat) (order : List V), order.Nodup ∧ (∀ x, x ∈ order ↔ (∃ o, o < m.length ∧ x = .ref o) ∧ Reachable m false root x) ∧
      ∀ n' ≥ n, recursiveForeach (foreachGraph τ m.length) applyFirst func n' (m, t) root = some (calls func (m, t) order) := by
  obtain ⟨n, order, h1, h2, h3⟩ := visit_order (τ := τ) m root flat
  exact ⟨n, order, h1, h2, h3 applyFirst func keeps t⟩

/-- C36, for every object graph. If no tuple in reach contains a list or a dictionary, the callback is applied to all entities in reach.
If one does, `recursive_foreach` applies the callback to some entities in reach, to none of them twice, and then raises TypeError -
unless a call raised before that. -/
theorem C36_every_graph {τ : Type} (m : Mem) (t : τ) (root : V) (applyFirst : Bool)
    (func : Mem × τ → V → Except PyErr (Mem × τ)) (keeps : ∀ s x s', func s x = .ok s' → SameGraph s.1 s'.1) :
    ∃ (n : Nat) (order : List V), order.Nodup ∧ (∀ x ∈ order, (∃ o, o < m.length ∧ x = .ref o) ∧ Reachable m false root x) ∧
      ((NoListInTuple m false root ∧ (∀ o, o < m.length → Reachable m false root (.ref o) → V.ref o ∈ order) ∧
        ∀ n' ≥ n, recursiveForeach (foreachGraph τ m.length) applyFirst func n' (m, t) root = some (calls func (m, t) order)) ∨
       (¬ NoListInTuple m false root ∧
        ∀ n' ≥ n, recursiveForeach (foreachGraph τ m.length) applyFirst func n' (m, t) root =
          some (match calls func (m, t) order with
            | .ok _ => .error .typeError
            | .error e => .error e))) := by
  have hk : ∀ v w, w ∈ kidsForeach m v ↔ Child m false v w := fun v w => mem_kidsForeach
  obtain ⟨n, order, stuck, h1, h2, h3, h4, h5⟩ := foreach_ends (foreachGraph τ m.length) (kidsForeach m) root
    (regular _ rfl (n := m.length) rfl (kidsOk_foreach m) root)
  have h6 := raises_iff (kidsOk_foreach m) (root := root)
  have h7 : FlatTuples (kidsForeach m) root ↔ NoListInTuple m false root :=
    forall_congr' (fun l => imp_congr_left (reach_iff hk))
  have h8 := h5 applyFirst func (kidsForeach_inj func keeps) (m, t) (fun _ => rfl)
  refine ⟨n, order, h1, fun x hx => ⟨isEntity_iff.mp (h2 x hx).1, (reach_iff hk).mp (h2 x hx).2⟩, ?_⟩
  cases stuck with
  | false =>
    refine Or.inl ⟨?_, fun o ho hr => h3 rfl _ (isEntity_iff.mpr ⟨o, ho, rfl⟩) ((reach_iff hk).mpr hr), ?_⟩
    · apply Classical.byContradiction
      intro hn
      exact absurd (h4.mpr (h6.mpr (fun h => hn (h7.mp h)))) (by simp)
    · intro n' hn'
      rw [h8 n' hn']
      cases calls func (m, t) order <;> rfl
  | true =>
    refine Or.inr ⟨fun h => h6.mp (h4.mp rfl) (h7.mpr h), ?_⟩
    intro n' hn'
    rw [h8 n' hn']
    cases calls func (m, t) order <;> rfl

/-- C36 fails for a tuple that contains a list: TypeError, the entity next to it is not visited. -/
theorem C36_tuple_with_list_counterexample :
    ∃ (m : Mem) (root : V), Reachable m false root (.ref 0) ∧ 0 < m.length ∧
      ∀ (τ : Type) (t : τ) (func : Mem × τ → V → Except PyErr (Mem × τ)) (n : Nat),
        recursiveForeach (foreachGraph τ m.length) false func (n + 2) (m, t) root = some (.error .typeError) := by
  refine ⟨[⟨.processRun, [], []⟩], .list [.ref 0, .tuple [.list []]], .step (.refl _) (.list (by simp)), by simp, ?_⟩
  intro τ t func n
  simp [recursiveForeach, loop, foreachGraph, V.hash, hashes, memberHash, mark, act, kidsForeach, isEntity]

/-- C36 fails for a list that contains itself (which is not a finite value `V`, but an object graph with one unhashable node): the
loop never ends. -/
theorem C36_self_containing_list_counterexample :
    ∃ (G : Graph Unit Unit Unit), (∀ s x, G.kids s x = [x]) ∧ (∀ x, G.hash x = .unhashable) ∧
      ∀ (applyFirst : Bool) (func : Unit → Unit → Except PyErr Unit) (n : Nat), recursiveForeach G applyFirst func n () () = none := by
  refine ⟨⟨fun _ => .unhashable, fun _ x => [x], fun _ => false⟩, fun _ _ => rfl, fun _ => rfl, ?_⟩
  intro applyFirst func n
  have : ∀ (n : Nat) (seen : List Unit), loop (⟨fun _ => .unhashable, fun _ x => [x], fun _ => false⟩ : Graph Unit Unit Unit) applyFirst func
      n () seen [()] = none := by
    intro n
    induction n with
    | zero => intro seen; rfl
    | succ n ih =>
      intro seen
      have := ih seen
      simpa [loop, mark, act] using this
  exact this n []

/-- a cyclic graph: process and material point to each other, an attribute value sits in a tuple in a dictionary -/
example : NoListInTuple [⟨.processRun, [], [("_output_material", .ref 1)]⟩,
    ⟨.materialRun, [], [("_process", .ref 0), ("file_links", .list [.dict [.str "k"] [.tuple [.int 1, .ref 0]]])]⟩] false (.list [.ref 1, .ref 0]) := by
  intro l hl
  have key : ∀ v w, Reachable [⟨.processRun, [], [("_output_material", .ref 1)]⟩,
      ⟨.materialRun, [], [("_process", .ref 0), ("file_links", .list [.dict [.str "k"] [.tuple [.int 1, .ref 0]]])]⟩] false v w →
      v = .list [.ref 1, .ref 0] → w ∈ [V.list [.ref 1, .ref 0], .ref 0, .ref 1, .list [.dict [.str "k"] [.tuple [.int 1, .ref 0]]],
        .dict [.str "k"] [.tuple [.int 1, .ref 0]], .str "k", .tuple [.int 1, .ref 0], .int 1] := by
    intro v w h
    induction h with
    | refl => rintro rfl; simp
    | step _ hc ih =>
      intro hv
      have := ih hv
      simp only [List.mem_cons, List.not_mem_nil, or_false] at this
      have hc := mem_kidsForeach.mpr hc
      rcases this with rfl | rfl | rfl | rfl | rfl | rfl | rfl | rfl <;> simp [kidsForeach] at hc <;> simp [hc]
      all_goals rcases hc with rfl | rfl <;> simp
  have := key _ _ hl rfl
  simp at this
  subst this
  simp

/-! ## C37: recursive_flatmap -/

/-- C37, for every object graph, with a callback that may raise and may keep a state. If no tuple in reach contains a list or a
dictionary, the results are those of the callback on the entities in reach, once each, concatenated. If one does, `recursive_flatmap`
applies the callback to some entities in reach, to none of them twice, and then raises TypeError - unless a call raised before that. -/
theorem C37_every_graph {τ β : Type} (m : Mem) (t : τ) (root : V) (uni : Bool)
    (func : Mem × τ → V → Except PyErr ((Mem × τ) × List β)) (keeps : ∀ s x s' r, func s x = .ok (s', r) → SameGraph s.1 s'.1) :
    ∃ (n : Nat) (order : List V), order.Nodup ∧ (∀ x ∈ order, (∃ o, o < m.length ∧ x = .ref o) ∧ Reachable m uni root x) ∧
      ((NoListInTuple m uni root ∧ (∀ o, o < m.length → Reachable m uni root (.ref o) → V.ref o ∈ order) ∧
        ∀ n' ≥ n, recursiveFlatmap (flatmapGraph τ uni m.length) func n' (m, t) root =
          some (calls (collect func) ((m, t), []) order)) ∨
       (¬ NoListInTuple m uni root ∧
        ∀ n' ≥ n, recursiveFlatmap (flatmapGraph τ uni m.length) func n' (m, t) root =
          some (match calls (collect func) ((m, t), []) order with
            | .ok _ => .error .typeError
            | .error e => .error e))) := by
  have hk : ∀ v w, w ∈ kidsFlatmap uni m v ↔ Child m uni v w := fun v w => mem_kidsFlatmap
  obtain ⟨n, order, stuck, h1, h2, h3, h4, h5⟩ := flatmap_spec (flatmapGraph τ uni m.length) func (kidsFlatmap uni m) (m, t) root
    (fun _ => rfl)
    (by
      intro s x s' r h hs y
      have := hs y
      simp only [flatmapGraph] at this ⊢
      rw [kidsFlatmap_congr (keeps s x s' r h), this])
    (regular _ rfl (n := m.length) rfl (kidsOk_flatmap m uni) root)
  have h6 := raises_iff (kidsOk_flatmap m uni) (root := root)
  have h7 : FlatTuples (kidsFlatmap uni m) root ↔ NoListInTuple m uni root :=
    forall_congr' (fun l => imp_congr_left (reach_iff hk))
  refine ⟨n, order, h1, fun x hx => ⟨isEntity_iff.mp (h2 x hx).1, (reach_iff hk).mp (h2 x hx).2⟩, ?_⟩
  cases stuck with
  | false =>
    refine Or.inl ⟨?_, fun o ho hr => h3 rfl _ (isEntity_iff.mpr ⟨o, ho, rfl⟩) ((reach_iff hk).mpr hr), ?_⟩
    · apply Classical.byContradiction
      intro hn
      exact absurd (h4.mpr (h6.mpr (fun h => hn (h7.mp h)))) (by simp)
    · intro n' hn'
      rw [h5 n' hn']
      cases calls (collect func) ((m, t), []) order <;> rfl
  | true =>
    refine Or.inr ⟨fun h => h6.mp (h4.mp rfl) (h7.mpr h), ?_⟩
    intro n' hn'
    rw [h5 n' hn']
    cases calls (collect func) ((m, t), []) order <;> rfl

/-- C37 for the graphs on which it returns. Missing for the full statement: as for C36, tuples that contain lists. -/
theorem C37_collects_all_once_partial {τ β : Type} (m : Mem) (t : τ) (root : V) (uni : Bool)
    (func : Mem × τ → V → Except PyErr ((Mem × τ) × List β)) (keeps : ∀ s x s' r, func s x = .ok (s', r) → SameGraph s.1 s'.1)
    (flat : NoListInTuple m uni root) :
    ∃ (n : Nat) (order : List V), order.Nodup ∧ (∀ x, x ∈ order ↔ (∃ o, o < m.length ∧ x = .ref o) ∧ Reachable m uni root x) ∧
      ∀ n' ≥ n, recursiveFlatmap (flatmapGraph τ uni m.length) func n' (m, t) root =
        some (calls (collect func) ((m, t), []) order) := by
  obtain ⟨n, order, h1, h2, h3⟩ := C37_every_graph m t root uni func keeps
  rcases h3 with ⟨_, h3, h4⟩ | ⟨h3, _⟩
  · refine ⟨n, order, h1, fun x => ⟨h2 x, ?_⟩, h4⟩
    rintro ⟨⟨o, ho, rfl⟩, hr⟩
    exact h3 o ho hr
  · exact absurd flat h3

/-- C37 for a function of the entity alone: the result is the concatenation over the entities in reach, each once. -/
theorem C37_results_partial {β : Type} (m : Mem) (root : V) (uni : Bool) (f : V → List β) (flat : NoListInTuple m uni root) :
    ∃ (n : Nat) (order : List V), order.Nodup ∧ (∀ x, x ∈ order ↔ (∃ o, o < m.length ∧ x = .ref o) ∧ Reachable m uni root x) ∧
      ∀ n' ≥ n, recursiveFlatmap (flatmapGraph Unit uni m.length) (fun s x => .ok (s, f x)) n' (m, ()) root =
        some (.ok ((m, ()), order.flatMap f)) := by
  obtain ⟨n, order, h1, h2, h3⟩ := C37_collects_all_once_partial (τ := Unit) m () root uni (fun s x => .ok (s, f x))
    (by intro s x s' r h; cases h; exact rfl) flat
  refine ⟨n, order, h1, h2, ?_⟩
  intro n' hn'
  rw [h3 n' hn']
  congr 1
  have : ∀ (l : List V) (acc : List β), calls (collect (fun (s : Mem × Unit) x => .ok (s, f x))) ((m, ()), acc) l = .ok ((m, ()), acc ++ l.flatMap f) := by
    intro l
    induction l with
    | nil => intro acc; simp [calls]
    | cons x xs ih => intro acc; simp only [calls, collect]; rw [ih]; simp
  have := this order []
  simpa using this

/-- C37 fails for a tuple that contains a list -/
theorem C37_tuple_with_list_counterexample :
    ∃ (m : Mem) (root : V), Reachable m true root (.ref 0) ∧ 0 < m.length ∧
      ∀ (uni : Bool) (n : Nat), recursiveFlatmap (β := V) (flatmapGraph Unit uni m.length) (fun s x => .ok (s, [x])) (n + 3) (m, ()) root =
        some (.error .typeError) := by
  refine ⟨[⟨.processRun, [], []⟩], .list [.ref 0, .tuple [.list []]], .step (.refl _) (.list (by simp)), by simp, ?_⟩
  intro uni n
  simp [recursiveFlatmap, loop, flatmapGraph, V.hash, hashes, memberHash, mark, act, kidsFlatmap, isEntity, sortFields, collect]

/-- with `unidirectional`, back references are not followed, without they are -/
example : (recursiveFlatmap (flatmapGraph Unit true 2) (fun s x => .ok (s, [x])) 10
    ([⟨.processRun, [], [("_output_material", .ref 1)]⟩, ⟨.materialRun, [], [("_process", .ref 0)]⟩], ()) (.ref 0)).map
      (fun r => r.toOption.map Prod.snd) = some (some [V.ref 0]) := by
  decide +kernel

example : (recursiveFlatmap (flatmapGraph Unit false 2) (fun s x => .ok (s, [x])) 10
    ([⟨.processRun, [], [("_output_material", .ref 1)]⟩, ⟨.materialRun, [], [("_process", .ref 0)]⟩], ()) (.ref 0)).map
      (fun r => r.toOption.map Prod.snd) = some (some [V.ref 0, V.ref 1]) := by
  decide +kernel

/-! ## C38: set_uuids -/

theorem sameGraph_refl (m : Mem) : SameGraph m m := rfl

theorem sameGraph_trans {a b c : Mem} (h : SameGraph a b) (g : SameGraph b c) : SameGraph a c := Eq.trans g h

theorem assignUid_sameGraph {scope : String} {gen : Nat → String} {s s' : Mem × Nat} {x : V} (h : assignUid scope gen s x = .ok s') :
    SameGraph s.1 s'.1 := by
  cases x <;> simp only [assignUid, reduceCtorEq] at h
  split at h
  · rename_i o _ x hx
    split at h <;> simp only [Except.ok.injEq] at h <;> subst h
    · unfold SameGraph
      apply List.ext_getElem?
      intro i
      simp only [List.getElem?_map, List.getElem?_set]
      split
      · rename_i hi
        subst hi
        rw [hx]
        split
        · rfl
        · rename_i hlt
          rw [List.getElem?_eq_none (by omega)] at hx
          cases hx
      · rfl
    · exact rfl
  · cases h

theorem reachable_congr {m m' : Mem} (h : SameGraph m m') {uni : Bool} {v w : V} : Reachable m' uni v w ↔ Reachable m uni v w := by
  rw [← reach_iff (kids := kidsFlatmap uni m') (fun _ _ => mem_kidsFlatmap), ← reach_iff (kids := kidsFlatmap uni m) (fun _ _ => mem_kidsFlatmap)]
  rw [funext (kidsFlatmap_congr h uni)]

/-- the effect of the callback on a list of entities -/
theorem assign_calls (scope : String) (gen : Nat → String) (order : List V) : ∀ (m : Mem) (c : Nat),
    (∀ x ∈ order, ∃ o, o < m.length ∧ x = .ref o) →
    ∃ (m' : Mem) (c' : Nat) (draw : Nat → Nat), calls (assignUid scope gen) (m, c) order = .ok (m', c') ∧ SameGraph m m' ∧ c ≤ c' ∧
      (∀ o x, m[o]? = some x → .ref o ∈ order → x.uids = [] → c ≤ draw o ∧ draw o < c' ∧
        m'[o]? = some { x with uids := [(scope, gen (draw o))] }) ∧
      (∀ o x, m[o]? = some x → (.ref o ∉ order ∨ x.uids ≠ []) → m'[o]? = some x) ∧
      (∀ o1 x1 o2 x2, m[o1]? = some x1 → .ref o1 ∈ order → x1.uids = [] → m[o2]? = some x2 → .ref o2 ∈ order → x2.uids = [] →
        draw o1 = draw o2 → o1 = o2) ∧
      ((∀ o x, m[o]? = some x → .ref o ∈ order → x.uids ≠ []) → m' = m ∧ c' = c) := by
  induction order with
  | nil =>
    intro m c _
    exact ⟨m, c, id, rfl, rfl, Nat.le_refl _, by simp, by simp, by simp, by simp⟩
  | cons v vs ih =>
    intro m c hv
    obtain ⟨p, hp, rfl⟩ := hv v List.mem_cons_self
    have hx : m[p]? = some m[p] := List.getElem?_eq_getElem hp
    by_cases hu : (m[p]).uids.length = 0
    · have hu' : (m[p]).uids = [] := List.eq_nil_of_length_eq_zero hu
      have e1 : assignUid scope gen (m, c) (.ref p) = .ok (m.set p { m[p] with uids := [(scope, gen c)] }, c + 1) := by
        simp only [assignUid, hx, if_pos hu]
      obtain ⟨m', c', draw, h1, h2, h3, h4, h5, h6, h7⟩ := ih (m.set p { m[p] with uids := [(scope, gen c)] }) (c + 1)
        (by intro x hx; rw [List.length_set]; exact hv x (List.mem_cons_of_mem _ hx))
      have hset : ∀ o, o ≠ p → (m.set p { m[p] with uids := [(scope, gen c)] })[o]? = m[o]? := by
        intro o ho
        rw [List.getElem?_set_ne (Ne.symm ho)]
      have hsetp : (m.set p { m[p] with uids := [(scope, gen c)] })[p]? = some { m[p] with uids := [(scope, gen c)] } := by
        rw [List.getElem?_set_self hp]
      have hfin : m'[p]? = some { m[p] with uids := [(scope, gen c)] } := h5 p _ hsetp (Or.inr (by simp))
      refine ⟨m', c', fun o => if o = p then c else draw o, ?_, ?_, by omega, ?_, ?_, ?_, ?_⟩
      · simp only [calls, e1]; exact h1
      · exact sameGraph_trans (assignUid_sameGraph e1) h2
      · intro o x hox hmem hux
        by_cases ho : o = p
        · subst ho
          rw [hx] at hox
          cases hox
          simp only [if_true]
          exact ⟨Nat.le_refl _, by omega, hfin⟩
        · simp only [if_neg ho]
          have hmem' : V.ref o ∈ vs := by
            rcases List.mem_cons.mp hmem with h | h
            · cases h; exact absurd rfl ho
            · exact h
          obtain ⟨a, b, d⟩ := h4 o x (by rw [hset o ho]; exact hox) hmem' hux
          exact ⟨by omega, b, d⟩
      · intro o x hox hor
        by_cases ho : o = p
        · subst ho
          rw [hx] at hox
          cases hox
          rcases hor with h | h
          · exact absurd List.mem_cons_self h
          · exact absurd hu' h
        · exact h5 o x (by rw [hset o ho]; exact hox) (hor.imp (fun h h' => h (List.mem_cons_of_mem _ h')) id)
      · intro o1 x1 o2 x2 a1 b1 d1 a2 b2 d2 he
        by_cases ho1 : o1 = p <;> by_cases ho2 : o2 = p
        · rw [ho1, ho2]
        · exfalso
          simp only [if_pos ho1, if_neg ho2] at he
          have hmem' : V.ref o2 ∈ vs := by
            rcases List.mem_cons.mp b2 with h | h
            · cases h; exact absurd rfl ho2
            · exact h
          have := (h4 o2 x2 (by rw [hset o2 ho2]; exact a2) hmem' d2).1
          omega
        · exfalso
          simp only [if_pos ho2, if_neg ho1] at he
          have hmem' : V.ref o1 ∈ vs := by
            rcases List.mem_cons.mp b1 with h | h
            · cases h; exact absurd rfl ho1
            · exact h
          have := (h4 o1 x1 (by rw [hset o1 ho1]; exact a1) hmem' d1).1
          omega
        · simp only [if_neg ho1, if_neg ho2] at he
          have m1 : V.ref o1 ∈ vs := by
            rcases List.mem_cons.mp b1 with h | h
            · cases h; exact absurd rfl ho1
            · exact h
          have m2 : V.ref o2 ∈ vs := by
            rcases List.mem_cons.mp b2 with h | h
            · cases h; exact absurd rfl ho2
            · exact h
          exact h6 o1 x1 o2 x2 (by rw [hset o1 ho1]; exact a1) m1 d1 (by rw [hset o2 ho2]; exact a2) m2 d2 he
      · intro hall
        exact absurd hu' (hall p _ hx List.mem_cons_self)
    · have hu' : (m[p]).uids ≠ [] := by intro h; rw [h] at hu; exact hu rfl
      have e1 : assignUid scope gen (m, c) (.ref p) = .ok (m, c) := by
        simp only [assignUid, hx, if_neg hu]
      obtain ⟨m', c', draw, h1, h2, h3, h4, h5, h6, h7⟩ := ih m c (fun x hx => hv x (List.mem_cons_of_mem _ hx))
      have strip : ∀ o x, m[o]? = some x → V.ref o ∈ V.ref p :: vs → x.uids = [] → V.ref o ∈ vs := by
        intro o x hox hmem hux
        rcases List.mem_cons.mp hmem with h | h
        · cases h
          rw [hx] at hox
          cases hox
          exact absurd hux hu'
        · exact h
      refine ⟨m', c', draw, ?_, h2, h3, ?_, ?_, ?_, ?_⟩
      · simp only [calls, e1]; exact h1
      · intro o x hox hmem hux
        exact h4 o x hox (strip o x hox hmem hux) hux
      · intro o x hox hor
        exact h5 o x hox (hor.imp (fun h h' => h (List.mem_cons_of_mem _ h')) id)
      · intro o1 x1 o2 x2 a1 b1 d1 a2 b2 d2 he
        exact h6 o1 x1 o2 x2 a1 (strip o1 x1 a1 b1 d1) d1 a2 (strip o2 x2 a2 b2 d2) d2 he
      · intro hall
        exact h7 (fun o x hox hmem => hall o x hox (List.mem_cons_of_mem _ hmem))

/-- C38. After `set_uuids(root, scope)`: every entity in reach without an id has gained exactly one, under `scope`, each from its own
draw; every other entity - out of reach, or with an id - is untouched; classes and fields are untouched; a second call draws nothing
and changes nothing. Missing for the full statement: tuples that contain lists (C36). -/
theorem C38_set_uuids_partial (scope : String) (gen : Nat → String) (m : Mem) (c : Nat) (root : V) (flat : NoListInTuple m false root) :
    ∃ (n : Nat) (m' : Mem) (c' : Nat) (draw : Nat → Nat),
      (∀ n' ≥ n, setUuids scope gen n' m c root = some (.ok (m', c'))) ∧
      m'.length = m.length ∧
      (∀ o x, m[o]? = some x → Reachable m false root (.ref o) → x.uids = [] →
        c ≤ draw o ∧ draw o < c' ∧ m'[o]? = some { x with uids := [(scope, gen (draw o))] }) ∧
      (∀ o x, m[o]? = some x → (¬ Reachable m false root (.ref o) ∨ x.uids ≠ []) → m'[o]? = some x) ∧
      (∀ o1 x1 o2 x2, m[o1]? = some x1 → Reachable m false root (.ref o1) → x1.uids = [] →
        m[o2]? = some x2 → Reachable m false root (.ref o2) → x2.uids = [] → draw o1 = draw o2 → o1 = o2) ∧
      ∃ n2, ∀ n' ≥ n2, setUuids scope gen n' m' c' root = some (.ok (m', c')) := by
  obtain ⟨n, order, o1, o2, o3⟩ := C36_visits_all_once_partial m c root false (assignUid scope gen) (fun _ _ _ h => assignUid_sameGraph h) flat
  obtain ⟨m', c', draw, h1, h2, h3, h4, h5, h6, h7⟩ := assign_calls scope gen order m c (fun x hx => ((o2 x).mp hx).1)
  have hmem : ∀ o x, m[o]? = some x → (V.ref o ∈ order ↔ Reachable m false root (.ref o)) := by
    intro o x hx
    rw [o2]
    refine ⟨fun h => h.2, fun h => ⟨⟨o, ?_, rfl⟩, h⟩⟩
    exact (List.getElem?_eq_some_iff.mp hx).1
  have hlen : m'.length = m.length := by
    have := congrArg List.length h2
    simpa using this
  have flat' : NoListInTuple m' false root := fun l hl => flat l ((reachable_congr h2).mp hl)
  obtain ⟨n2, order', p1, p2, p3⟩ := C36_visits_all_once_partial m' c' root false (assignUid scope gen) (fun _ _ _ h => assignUid_sameGraph h) flat'
  obtain ⟨m'', c'', _, q1, _, _, _, _, _, q7⟩ := assign_calls scope gen order' m' c' (fun x hx => ((p2 x).mp hx).1)
  have hsame := q7 (by
    intro o y hy hmo
    have hlt : o < m.length := by rw [← hlen]; exact (List.getElem?_eq_some_iff.mp hy).1
    have hx : m[o]? = some m[o] := List.getElem?_eq_getElem hlt
    have hr : Reachable m false root (.ref o) := (reachable_congr h2).mp ((p2 _).mp hmo).2
    by_cases hu : (m[o]).uids = []
    · have := (h4 o _ hx ((hmem o _ hx).mpr hr) hu).2.2
      rw [this] at hy
      cases hy
      simp
    · have := h5 o _ hx (Or.inr hu)
      rw [this] at hy
      cases hy
      exact hu)
  refine ⟨n, m', c', draw, ?_, hlen, ?_, ?_, ?_, n2, ?_⟩
  · intro n' hn'
    unfold setUuids
    rw [o3 n' hn', h1]
  · intro o x hx hr hu
    exact h4 o x hx ((hmem o x hx).mpr hr) hu
  · intro o x hx hor
    exact h5 o x hx (hor.imp (fun h h' => h ((hmem o x hx).mp h')) id)
  · intro a xa b xb ha ra ua hb rb ub he
    exact h6 a xa b xb ha ((hmem a xa ha).mpr ra) ua hb ((hmem b xb hb).mpr rb) ub he
  · intro n' hn'
    unfold setUuids
    rw [p3 n' hn', q1, hsame.1, hsame.2]

/-- C38, for every other object graph: if a tuple in reach contains a list or a dictionary, `set_uuids` raises TypeError. -/
theorem C38_raises (scope : String) (gen : Nat → String) (m : Mem) (c : Nat) (root : V) :
    (∃ n, ∀ n' ≥ n, setUuids scope gen n' m c root = some (.error .typeError)) ↔ ¬ NoListInTuple m false root := by
  constructor
  · rintro ⟨n, h⟩ flat
    obtain ⟨n1, m', c', _, h1, _⟩ := C38_set_uuids_partial scope gen m c root flat
    have h2 := h (max n n1) (Nat.le_max_left _ _)
    rw [h1 (max n n1) (Nat.le_max_right _ _)] at h2
    cases h2
  · intro hn
    obtain ⟨n, order, o1, o2, o3⟩ := C36_every_graph m c root false (assignUid scope gen) (fun _ _ _ h => assignUid_sameGraph h)
    rcases o3 with ⟨h, _⟩ | ⟨_, h⟩
    · exact absurd h hn
    · obtain ⟨m', c', _, h1, _⟩ := assign_calls scope gen order m c (fun x hx => (o2 x hx).1)
      refine ⟨n, fun n' hn' => ?_⟩
      show recursiveForeach _ _ _ _ _ _ = _
      rw [h n' hn', h1]

/-- C38 fails for a tuple that contains a list: TypeError, and the entity in reach has no id. -/
theorem C38_tuple_with_list_counterexample :
    ∃ (m : Mem) (root : V), Reachable m false root (.ref 0) ∧ (∃ x, m[0]? = some x ∧ x.uids = []) ∧
      ∀ scope gen n, setUuids scope gen (n + 2) m 0 root = some (.error .typeError) := by
  refine ⟨[⟨.processRun, [], []⟩], .list [.ref 0, .tuple [.list []]], .step (.refl _) (.list (by simp)), ⟨_, rfl, rfl⟩, ?_⟩
  intro scope gen n
  simp [setUuids, recursiveForeach, loop, foreachGraph, V.hash, hashes, memberHash, mark, act, kidsForeach, isEntity]

end Verif.Value
