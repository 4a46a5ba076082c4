import Verif.Props.CIDict
/-!
# C01/C02: what holds after every history, whatever was put in
-/

set_option linter.unusedSectionVars false
set_option linter.unusedSimpArgs false

namespace Verif.CIDict
open Verif.Py

variable {K L V : Type} [DecidableEq K] [DecidableEq L] {lower : K → L}

/-- every entry of `lowercase_dict` leads to a stored key -/
structure Sound (lower : K → L) (s : St K L V) : Prop where
  main : Dict.WF s.main
  low : Dict.WF s.low
  entry : ∀ l k, Dict.get? s.low l = some k → lower k = l ∧ k ∈ Dict.keys s.main

theorem register_sound {low low' : Dict L K} {k : K} {main : Dict K V} (h : Sound lower ⟨main, low⟩) (hk : k ∈ Dict.keys main) (hr : register lower low k = .ok low') :
    Sound lower ⟨main, low'⟩ := by
  have : low' = low.set (lower k) k := by
    unfold register at hr
    split at hr
    · split at hr
      · cases hr
      · cases hr; rfl
    · cases hr; rfl
  subst this
  refine ⟨h.main, Dict.WF_set h.low _ _, fun l k' hl => ?_⟩
  rw [Dict.get?_set] at hl
  split at hl
  · cases hl; exact ⟨by assumption, hk⟩
  · exact h.entry l k' hl

theorem registerAll_sound {main : Dict K V} (ks : List K) (low : Dict L K) (h : Sound lower ⟨main, low⟩) (hk : ∀ k ∈ ks, k ∈ Dict.keys main) :
    Sound lower ⟨main, (registerAll lower low ks).1⟩ := by
  induction ks generalizing low with
  | nil => exact h
  | cons k ks ih =>
    simp only [registerAll]
    split
    · exact h
    · rename_i low' hr
      exact ih low' (register_sound h (hk k (by simp)) hr) (fun k hk' => hk k (by simp [hk']))

theorem WF_setAll (d : Dict K V) (b : List (K × V)) (h : Dict.WF d) : Dict.WF (d.setAll b) := by
  induction b generalizing d with
  | nil => exact h
  | cons e b ih => exact ih _ (Dict.WF_set h _ _)

theorem mem_setAll (d : Dict K V) (b : List (K × V)) (k : K) : k ∈ Dict.keys (d.setAll b) ↔ k ∈ Dict.keys d ∨ k ∈ b.map Prod.fst := by
  induction b generalizing d with
  | nil => simp [Dict.setAll]
  | cons e b ih =>
    obtain ⟨a, v⟩ := e
    simp only [Dict.setAll, ih, Dict.mem_keys_set, List.map_cons, List.mem_cons]
    grind

theorem Sound.grow {main main' : Dict K V} {low : Dict L K} (h : Sound lower ⟨main, low⟩) (hW : Dict.WF main') (hk : ∀ k ∈ Dict.keys main, k ∈ Dict.keys main') :
    Sound lower ⟨main', low⟩ := ⟨hW, h.low, fun l k hl => ⟨(h.entry l k hl).1, hk k (h.entry l k hl).2⟩⟩

theorem init_sound {items : List (K × V)} {s : St K L V} (h : init lower items = .ok s) : Sound lower s := by
  unfold init at h
  have hW : Dict.WF (Dict.setAll ([] : Dict K V) items) := WF_setAll _ _ (by simp [Dict.WF, Dict.keys])
  have := registerAll_sound (lower := lower) (main := Dict.setAll ([] : Dict K V) items) (Dict.keys (Dict.setAll ([] : Dict K V) items)) []
    ⟨hW, by simp [Dict.WF, Dict.keys], by simp⟩ (fun k hk => hk)
  simp only at h
  split at h
  · rename_i low hr
    cases h
    rw [hr] at this
    exact this
  · cases h

theorem get?_erase_self {A B : Type} [DecidableEq A] {d : Dict A B} (hd : Dict.WF d) (k : A) : Dict.get? (d.erase k) k = none := by
  rw [Dict.get?_eq_none_iff, Dict.keys_erase]
  exact fun h => absurd rfl ((List.Nodup.mem_erase_iff hd).1 h).1

theorem get?_erase_ne {A B : Type} [DecidableEq A] (d : Dict A B) {k k' : A} (h : k' ≠ k) : Dict.get? (d.erase k) k' = Dict.get? d k' := by
  induction d with
  | nil => rfl
  | cons e d ih =>
    obtain ⟨a, b⟩ := e
    simp only [Dict.erase]
    split
    · rename_i ha
      subst ha
      rw [Dict.get?, if_neg (fun e => h e.symm)]
    · simp only [Dict.get?, ih]

/-- taking out a key together with its entry -/
theorem Sound.drop {s : St K L V} (h : Sound lower s) {k : K} {l : L} (hl : lower k = l) (main' : Dict K V) (hm : Dict.WF main')
    (hk : ∀ k' ∈ Dict.keys s.main, k' ≠ k → k' ∈ Dict.keys main') : Sound lower ⟨main', s.low.erase l⟩ := by
  refine ⟨hm, Dict.WF_erase h.low _, fun l' k' hl' => ?_⟩
  by_cases e : l' = l
  · subst e; rw [get?_erase_self h.low] at hl'; cases hl'
  · rw [get?_erase_ne _ e] at hl'
    obtain ⟨h1, h2⟩ := h.entry _ _ hl'
    exact ⟨h1, hk k' h2 (fun e' => e (by rw [← h1, e', hl]))⟩

/-- taking out a key that has no entry -/
theorem Sound.dropKey {s : St K L V} (h : Sound lower s) {k : K} (hl : Dict.get? s.low (lower k) = none) (main' : Dict K V) (hm : Dict.WF main')
    (hk : ∀ k' ∈ Dict.keys s.main, k' ≠ k → k' ∈ Dict.keys main') : Sound lower ⟨main', s.low⟩ := by
  refine ⟨hm, h.low, fun l' k' hl' => ?_⟩
  obtain ⟨h1, h2⟩ := h.entry _ _ hl'
  refine ⟨h1, hk k' h2 (fun e => ?_)⟩
  subst e
  rw [h1, hl'] at hl
  cases hl

theorem keys_erase_mem {d : Dict K V} (hd : Dict.WF d) {k k' : K} (h : k' ∈ Dict.keys d) (hne : k' ≠ k) : k' ∈ Dict.keys (d.erase k) := by
  rw [Dict.keys_erase]
  exact (List.Nodup.mem_erase_iff hd).2 ⟨hne, h⟩

theorem has_false {A B : Type} [DecidableEq A] {d : Dict A B} {k : A} (h : ¬ Dict.has d k = true) : Dict.get? d k = none := by
  unfold Dict.has at h
  cases e : Dict.get? d k with
  | none => rfl
  | some _ => simp [e] at h

theorem call_sound {s : St K L V} (h : Sound lower s) (c : Call K V) : Sound lower (callOne lower s c).1 := by
  cases c with
  | setdefault k v =>
    simp only [callOne, setdefault]
    split
    · exact h
    · exact h.grow (Dict.WF_set h.main _ _) (fun k' hk' => Dict.mem_keys_set.2 (.inr hk'))
  | op o =>
    cases o with
    | setItem k v =>
      simp only [callOne, step, setItem]
      split
      · exact h
      · rename_i low hr
        exact register_sound (h.grow (Dict.WF_set h.main k v) (fun k' hk' => Dict.mem_keys_set.2 (.inr hk'))) (Dict.mem_keys_set.2 (.inl rfl)) hr
    | delItem k =>
      simp only [callOne, step, delItem]
      split
      · split
        · exact h.drop rfl _ (Dict.WF_erase h.main _) (fun k' h1 h2 => keys_erase_mem h.main h1 h2)
        · rename_i hn
          exact h.dropKey (has_false hn) _ (Dict.WF_erase h.main _) (fun k' h1 h2 => keys_erase_mem h.main h1 h2)
      · exact h
    | pop k =>
      simp only [callOne, step, pop]
      split
      · exact h
      · rename_i k1 hk1
        split
        · exact h
        · exact h.drop (h.entry _ _ hk1).1 _ (Dict.WF_erase h.main _) (fun k' h1 h2 => keys_erase_mem h.main h1 h2)
    | popDefault k d =>
      simp only [callOne, step, popDefault]
      split
      · exact h
      · rename_i k1 hk1
        split
        · exact h.drop (h.entry _ _ hk1).1 _ h.main (fun k' h1 _ => h1)
        · exact h.drop (h.entry _ _ hk1).1 _ (Dict.WF_erase h.main _) (fun k' h1 h2 => keys_erase_mem h.main h1 h2)
    | popitem =>
      simp only [callOne, step, popitem]
      split
      · exact h
      · rename_i k v hl
        have hm : s.main = s.main.dropLast ++ [(k, v)] := by
          obtain ⟨ys, hys⟩ := List.getLast?_eq_some_iff.1 hl
          rw [hys, List.dropLast_concat]
        have hW : Dict.WF s.main.dropLast := by
          have := h.main
          unfold Dict.WF Dict.keys at this ⊢
          rw [hm, List.map_append] at this
          exact (List.nodup_append.1 this).1
        have hk : ∀ k' ∈ Dict.keys s.main, k' ≠ k → k' ∈ Dict.keys s.main.dropLast := by
          intro k' h1 h2
          unfold Dict.keys at h1 ⊢
          rw [hm, List.map_append, List.mem_append] at h1
          rcases h1 with h1 | h1
          · exact h1
          · simp at h1; exact absurd h1 h2
        split
        · exact h.drop rfl _ hW hk
        · rename_i hn
          exact h.dropKey (has_false hn) _ hW hk
    | clear => exact ⟨by simp [callOne, step, clear, Dict.WF, Dict.keys], by simp [callOne, step, clear, Dict.WF, Dict.keys], by simp [callOne, step, clear]⟩
    | update b =>
      simp only [callOne, step, update]
      split
      · exact h
      · refine registerAll_sound _ _ (h.grow (WF_setAll _ _ h.main) (fun k hk => (mem_setAll _ _ _).2 (.inl hk))) (fun k hk => (mem_setAll _ _ _).2 (.inr hk))
    | becomeCopy =>
      simp only [callOne, step]
      split
      · rename_i s' hs; exact init_sound hs
      · exact h
    | getItem k => exact h
    | get k d => exact h
    | contains k => exact h
    | items => exact h

theorem calls_sound {s : St K L V} (h : Sound lower s) (cs : List (Call K V)) : Sound lower (calls lower s cs).1 := by
  induction cs generalizing s with
  | nil => exact h
  | cons c cs ih => exact ih (call_sound h c)

/-- C01: after every history, whatever was put in by `update` and `setdefault`: no key is stored twice; `k in d` tells whether `d[k]` succeeds, and otherwise it raises KeyError; what
`d[k]` returns is the value stored with a key that differs at most in case, and it is the same for all casings of `k`. -/
theorem C01_lookups (lower : K → L) (seed : List (K × V)) (s0 : St K L V) (h0 : init lower seed = .ok s0) (cs : List (Call K V)) :
    let s := (calls lower s0 cs).1
    (s.main.map Prod.fst).Nodup ∧ ∀ k, (contains lower s k = true ∧ (∃ k' v, lower k' = lower k ∧ (k', v) ∈ s.main ∧ ∀ k'', lower k'' = lower k → getItem lower s k'' = .ok v)) ∨
      (contains lower s k = false ∧ getItem lower s k = .error .keyError ∧ ∀ d, get lower s k d = .ok d) := by
  have h := calls_sound (init_sound h0) cs
  refine ⟨h.main, fun k => ?_⟩
  cases hl : Dict.get? (calls lower s0 cs).1.low (lower k) with
  | none =>
    right
    have hc : contains lower (calls lower s0 cs).1 k = false := by simp [contains, Dict.has, hl]
    refine ⟨hc, by simp [getItem, hl], fun d => by simp [get, hc]⟩
  | some k' =>
    left
    obtain ⟨h1, h2⟩ := h.entry _ _ hl
    have := Dict.get?_isSome_iff.2 h2
    obtain ⟨v, hv⟩ := Option.isSome_iff_exists.1 this
    refine ⟨by simp [contains, Dict.has, hl], k', v, h1, Dict.mem_of_get? hv, fun k'' e => ?_⟩
    simp [getItem, e, hl, hv]

theorem registerAll_result (low : Dict L K) (ks : List K) (h : ∀ k ∈ ks, conflicts lower low k = false) :
    (registerAll lower low ks).2 = .ok () ∧ (∀ a ∈ ks, ∀ b ∈ ks, lower a = lower b → a = b) ∨
    (registerAll lower low ks).2 = .error .valueError ∧ ¬ ∀ a ∈ ks, ∀ b ∈ ks, lower a = lower b → a = b := by
  induction ks generalizing low with
  | nil => left; exact ⟨rfl, by simp⟩
  | cons k ks ih =>
    have hk := h k (by simp)
    have hr : register lower low k = .ok (low.set (lower k) k) := by
      unfold register
      unfold conflicts at hk
      split
      · rename_i prev hp
        rw [hp] at hk
        simp only [decide_eq_false_iff_not] at hk
        rw [if_neg hk]
      · rfl
    simp only [registerAll, hr]
    by_cases hc : ∀ a ∈ ks, lower a = lower k → a = k
    · have hn : ∀ a ∈ ks, conflicts lower (low.set (lower k) k) a = false := by
        intro a ha
        have h1 := h a (by simp [ha])
        unfold conflicts at h1 ⊢
        rw [Dict.get?_set]
        split
        · rename_i prev hp
          split at hp
          · rename_i e
            cases hp
            simpa using (hc a ha e.symm).symm
          · rw [hp] at h1; exact h1
        · rfl
      rcases ih _ hn with ⟨h1, h2⟩ | ⟨h1, h2⟩
      · left
        refine ⟨h1, ?_⟩
        intro a ha b hb e
        simp only [List.mem_cons] at ha hb
        rcases ha with rfl | ha <;> rcases hb with rfl | hb
        · rfl
        · exact (hc b hb e.symm).symm
        · exact hc a ha e
        · exact h2 a ha b hb e
      · right
        exact ⟨h1, fun hh => h2 (fun a ha b hb e => hh a (by simp [ha]) b (by simp [hb]) e)⟩
    · right
      refine ⟨?_, fun hh => hc (fun a ha e => hh a (by simp [ha]) k (by simp) e)⟩
      simp only [Classical.not_forall] at hc
      obtain ⟨a, ha, e, hne⟩ := hc
      -- the loop meets `a` or raises before
      have key : ∀ (ks : List K) (low : Dict L K), Dict.get? low (lower k) = some k → a ∈ ks → (registerAll lower low ks).2 = .error .valueError := by
        intro ks
        induction ks with
        | nil => intro _ _ h; cases h
        | cons c cs ihc =>
          intro low hlow hmem
          simp only [registerAll]
          by_cases hcc : lower c = lower k
          · by_cases hck : c = k
            · subst hck
              have : register lower low c = .ok (low.set (lower c) c) := by unfold register; rw [hlow]; simp
              rw [this]
              simp only
              apply ihc
              · simp
              · rcases List.mem_cons.1 hmem with rfl | hm
                · exact absurd rfl hne
                · exact hm
            · have : register lower low c = .error .valueError := by
                unfold register
                rw [hcc, hlow]
                simp only
                rw [if_pos (fun e => hck e.symm)]
              rw [this]
          · cases hreg : register lower low c with
            | error e' =>
              unfold register at hreg
              split at hreg
              · split at hreg
                · cases hreg; rfl
                · cases hreg
              · cases hreg
            | ok low' =>
              simp only
              apply ihc
              · have : low' = low.set (lower c) c := by
                  unfold register at hreg
                  split at hreg
                  · split at hreg
                    · cases hreg
                    · cases hreg; rfl
                  · cases hreg; rfl
                rw [this, Dict.get?_set, if_neg hcc, hlow]
              · rcases List.mem_cons.1 hmem with rfl | hm
                · exact absurd e hcc
                · exact hm
      exact key ks _ (by simp) ha

/-- C02: what `update` does in every state. If a key of the batch is known under another casing, it raises ValueError and nothing has changed; otherwise the whole batch has been
stored, and ValueError is raised exactly if the batch has a key in two casings. -/
theorem C02_update (lower : K → L) (s : St K L V) (b : List (K × V)) :
    ((∃ e ∈ b, ∃ k, Dict.get? s.low (lower e.1) = some k ∧ k ≠ e.1) ∧ update lower s b = (s, .error .valueError)) ∨
    ((∀ e ∈ b, ∀ k, Dict.get? s.low (lower e.1) = some k → k = e.1) ∧ (update lower s b).1.main = s.main.setAll b ∧
      ((SelfConsistent lower b ∧ (update lower s b).2 = .ok ()) ∨ (¬ SelfConsistent lower b ∧ (update lower s b).2 = .error .valueError))) := by
  by_cases hc : (b.map Prod.fst).any (conflicts lower s.low) = true
  · left
    refine ⟨?_, by unfold update; rw [if_pos hc]⟩
    obtain ⟨k, hk, h⟩ := List.any_eq_true.1 hc
    obtain ⟨e, he, rfl⟩ := List.mem_map.1 hk
    unfold conflicts at h
    split at h
    · rename_i prev hp
      exact ⟨e, he, prev, hp, by simpa using h⟩
    · cases h
  · right
    have hn : ∀ k ∈ b.map Prod.fst, conflicts lower s.low k = false := by
      intro k hk
      cases h : conflicts lower s.low k with
      | false => rfl
      | true => exact absurd (List.any_eq_true.2 ⟨k, hk, h⟩) hc
    refine ⟨?_, by unfold update; rw [if_neg hc], ?_⟩
    · intro e he k hk
      have := hn e.1 (List.mem_map_of_mem he)
      unfold conflicts at this
      rw [hk] at this
      simpa using this
    · have hs : SelfConsistent lower b ↔ ∀ a ∈ b.map Prod.fst, ∀ c ∈ b.map Prod.fst, lower a = lower c → a = c := by
        unfold SelfConsistent
        simp only [List.mem_map, forall_exists_index, and_imp, forall_apply_eq_imp_iff₂]
      unfold update
      rw [if_neg hc, hs]
      rcases registerAll_result (lower := lower) s.low (b.map Prod.fst) hn with ⟨h1, h2⟩ | ⟨h1, h2⟩
      · exact .inl ⟨h2, h1⟩
      · exact .inr ⟨h2, h1⟩

/-- a batch with a key in two casings, a default under a third, and a deletion that removes one of them -/
example : (calls demoLower (⟨[], []⟩ : St (Nat × Bool) Nat Nat) [.op (.update [((0, false), 1), ((0, true), 2)]), .setdefault (1, true) 5, .op (.contains (1, true)), .op (.delItem (0, true)),
      .op (.getItem (0, true)), .op .items]).2 =
    [.raised .valueError, .val 5, .bool false, .done, .raised .keyError, .items [((0, true), 2), ((1, true), 5)]] := by decide

end Verif.CIDict
