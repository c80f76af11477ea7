import Verif.Spec.Content
import Verif.Model.Format
import Verif.Lemmas.Tree
/-! Equality of documents is equality of content. -/

namespace Rops
open Spec

variable {α : Type} {f : α → α → Bool} {same : α → α → Prop}

theorem entry_cons (k k' : Str) (t : Tree α) (r : RMap α) :
    entry ((k, t) :: r) k' = if k = k' then some t else entry r k' := by
  unfold entry
  by_cases h : k = k'
  · rw [List.find?_cons_of_pos (by simpa using h), if_pos h]; rfl
  · rw [List.find?_cons_of_neg (by simpa using h), if_neg h]

theorem get_eq_entry (m : RMap α) (k : Str) : IndexMap.get m k = entry m k := by
  induction m with
  | nil => rfl
  | cons x r ih =>
    obtain ⟨k', t⟩ := x
    rw [entry_cons, ← ih]
    simp only [IndexMap.get]

theorem entry_eq_none {m : RMap α} {k : Str} : entry m k = none ↔ k ∉ m.map Prod.fst := by
  induction m with
  | nil => simp [entry]
  | cons x r ih =>
    obtain ⟨k', t⟩ := x
    rw [entry_cons]
    by_cases h : k' = k
    · simp [h]
    · have h' : ¬ k = k' := fun e => h e.symm
      rw [if_neg h, ih]
      simp [h']

theorem entry_isSome {m : RMap α} {k : Str} (h : k ∈ m.map Prod.fst) : ∃ t, entry m k = some t := by
  cases he : entry m k with
  | none => exact absurd h (entry_eq_none.1 he)
  | some t => exact ⟨t, rfl⟩

theorem mem_of_entry {m : RMap α} {k : Str} {t : Tree α} (h : entry m k = some t) : (k, t) ∈ m := by
  induction m with
  | nil => cases h
  | cons x r ih =>
    obtain ⟨k', t'⟩ := x
    rw [entry_cons] at h
    by_cases hk : k' = k
    · rw [if_pos hk] at h; cases h; subst hk; simp
    · rw [if_neg hk] at h; simp [ih h]

theorem subMap_iff {a b : RMap α} (ha : (a.map Prod.fst).Nodup) : Tree.subMap f a b = true ↔
    ∀ k t, entry a k = some t → ∃ t', entry b k = some t' ∧ Tree.eqBy f t t' = true := by
  induction a with
  | nil => simp [Tree.subMap, entry]
  | cons x r ih =>
    obtain ⟨k, t⟩ := x
    simp only [List.map_cons, List.nodup_cons] at ha
    simp only [Tree.subMap, Bool.and_eq_true, ih ha.2, get_eq_entry]
    constructor
    · rintro ⟨h1, h2⟩ k' t' hk'
      rw [entry_cons] at hk'
      by_cases hk : k = k'
      · rw [if_pos hk] at hk'
        cases hk'
        subst hk
        cases hb : entry b k with
        | none => rw [hb] at h1; cases h1
        | some t' => rw [hb] at h1; exact ⟨t', rfl, h1⟩
      · rw [if_neg hk] at hk'
        exact h2 k' t' hk'
    · intro h
      refine ⟨?_, fun k' t' hk' => h k' t' ?_⟩
      · obtain ⟨t', h1, h2⟩ := h k t (by rw [entry_cons, if_pos rfl])
        rw [h1]; exact h2
      · rw [entry_cons]
        by_cases hk : k = k'
        · subst hk
          exact absurd (List.mem_map_of_mem (f := Prod.fst) (mem_of_entry hk')) ha.1
        · rw [if_neg hk]; exact hk'

theorem distinctKeys_of_entry {m : RMap α} (h : DistinctKeysMap m) {k : Str} {t : Tree α} (he : entry m k = some t) :
    DistinctKeys t := by
  induction m with
  | nil => cases he
  | cons x r ih =>
    obtain ⟨k', t'⟩ := x
    rw [entry_cons] at he
    by_cases hk : k' = k
    · rw [if_pos hk] at he; cases he; exact h.1
    · rw [if_neg hk] at he; exact ih h.2 he

/-- A duplicate free list that is as long as a list containing all its elements has all of
that list's elements. -/
theorem subset_of_nodup_length {β : Type} [DecidableEq β] {l l' : List β} (hl : l.Nodup) (hs : ∀ x ∈ l, x ∈ l')
    (hlen : l.length = l'.length) : ∀ x ∈ l', x ∈ l := by
  induction l generalizing l' with
  | nil =>
    intro x hx
    have : l' = [] := List.length_eq_zero_iff.1 hlen.symm
    rw [this] at hx
    cases hx
  | cons y r ih =>
    simp only [List.nodup_cons] at hl
    intro x hx
    by_cases hxy : x = y
    · simp [hxy]
    · have hy : y ∈ l' := hs y (by simp)
      have := ih hl.2 (l' := l'.erase y) (fun z hz => by
        have hzy : z ≠ y := fun e => hl.1 (e ▸ hz)
        exact (List.mem_erase_of_ne hzy).2 (hs z (by simp [hz]))) (by
        rw [List.length_erase_of_mem hy]
        simp only [List.length_cons] at hlen
        omega) x ((List.mem_erase_of_ne hxy).2 hx)
      simp [this]

theorem sameNode_none_left {x : Option (Node α)} (h : SameNode same none x) : x = none := by
  cases x with
  | none => rfl
  | some n => cases n <;> exact h.elim

theorem sameNode_none_right {x : Option (Node α)} (h : SameNode same x none) : x = none := by
  cases x with
  | none => rfl
  | some n => cases n <;> exact h.elim

theorem nodeAt_nil_isSome (t : Tree α) : ∃ n, nodeAt [] t = some n := by
  cases t <;> simp [nodeAt]

theorem eqBy_iff_sameContent (hf : ∀ a b, f a b = true ↔ same a b) :
    (∀ a : Tree α, ∀ b, DistinctKeys a → DistinctKeys b → (Tree.eqBy f a b = true ↔ SameContent same a b)) ∧
    (∀ a : List (Tree α), ∀ b, DistinctKeysSeq a → DistinctKeysSeq b →
      (Tree.eqSeq f a b = true ↔ SameContent same (.seq a) (.seq b))) ∧
    (∀ a : RMap α, DistinctKeysMap a → ∀ k t, entry a k = some t → ∀ t', DistinctKeys t' →
      (Tree.eqBy f t t' = true ↔ SameContent same t t')) := by
  apply Tree.induct
  · -- seq
    intro l ih b ha hb
    cases b with
    | seq l' => exact ih l' ha hb
    | map m => simp only [Tree.eqBy, Bool.false_eq_true, false_iff]; intro h; exact (h []).elim
    | null => simp only [Tree.eqBy, Bool.false_eq_true, false_iff]; intro h; exact (h []).elim
    | leaf x => simp only [Tree.eqBy, Bool.false_eq_true, false_iff]; intro h; exact (h []).elim
  · -- map
    intro m ih b ha hb
    cases b with
    | seq l' => simp only [Tree.eqBy, Bool.false_eq_true, false_iff]; intro h; exact (h []).elim
    | null => simp only [Tree.eqBy, Bool.false_eq_true, false_iff]; intro h; exact (h []).elim
    | leaf x => simp only [Tree.eqBy, Bool.false_eq_true, false_iff]; intro h; exact (h []).elim
    | map m' =>
      simp only [Tree.eqBy, Bool.and_eq_true, beq_iff_eq, subMap_iff ha.1]
      constructor
      · rintro ⟨hlen, hsub⟩
        have hkeys : ∀ k, k ∈ m'.map Prod.fst → k ∈ m.map Prod.fst :=
          subset_of_nodup_length ha.1 (fun k hk => by
            obtain ⟨t, ht⟩ := entry_isSome hk
            obtain ⟨t', ht', _⟩ := hsub k t ht
            exact List.mem_map_of_mem (f := Prod.fst) (mem_of_entry ht')) (by simpa using hlen)
        intro place
        rcases place with _ | ⟨s, r⟩
        · trivial
        · cases s with
          | pos n => exact trivial
          | key k =>
            simp only [nodeAt]
            cases he : entry m k with
            | none =>
              have : entry m' k = none := entry_eq_none.2 fun hk => entry_eq_none.1 he (hkeys k hk)
              rw [this]; exact trivial
            | some t =>
              obtain ⟨t', ht', heq⟩ := hsub k t he
              rw [ht']
              exact (ih ha.2 k t he t' (distinctKeys_of_entry hb.2 ht')).1 heq r
      · intro h
        have hsub : ∀ k t, entry m k = some t → ∃ t', entry m' k = some t' ∧ Tree.eqBy f t t' = true := by
          intro k t he
          cases he' : entry m' k with
          | none =>
            have := h [.key k]
            simp only [nodeAt, he, he', Option.bind_some, Option.bind_none] at this
            obtain ⟨n, hn⟩ := nodeAt_nil_isSome t
            have := sameNode_none_right this
            rw [hn] at this; cases this
          | some t' =>
            refine ⟨t', rfl, (ih ha.2 k t he t' (distinctKeys_of_entry hb.2 he')).2 fun r => ?_⟩
            have := h (.key k :: r)
            simp only [nodeAt, he, he', Option.bind_some] at this
            exact this
        refine ⟨?_, hsub⟩
        have h1 : ∀ k ∈ m.map Prod.fst, k ∈ m'.map Prod.fst := fun k hk => by
          obtain ⟨t, ht⟩ := entry_isSome hk
          obtain ⟨t', ht', _⟩ := hsub k t ht
          exact List.mem_map_of_mem (f := Prod.fst) (mem_of_entry ht')
        have h2 : ∀ k ∈ m'.map Prod.fst, k ∈ m.map Prod.fst := fun k hk => by
          obtain ⟨t, ht⟩ := entry_isSome hk
          by_cases hk' : k ∈ m.map Prod.fst
          · exact hk'
          · have := h [.key k]
            simp only [nodeAt, entry_eq_none.2 hk', ht, Option.bind_some, Option.bind_none] at this
            obtain ⟨n, hn⟩ := nodeAt_nil_isSome t
            have := sameNode_none_left this
            rw [hn] at this; cases this
        have hp := (List.perm_ext_iff_of_nodup ha.1 hb.1).2 fun k => ⟨h1 k, h2 k⟩
        simpa using hp.length_eq
  · -- null
    intro b _ _
    cases b with
    | null =>
      simp only [Tree.eqBy, true_iff]
      intro place
      rcases place with _ | ⟨s, r⟩
      · trivial
      · cases s <;> exact trivial
    | seq l' => simp only [Tree.eqBy, Bool.false_eq_true, false_iff]; intro h; exact (h []).elim
    | map l' => simp only [Tree.eqBy, Bool.false_eq_true, false_iff]; intro h; exact (h []).elim
    | leaf l' => simp only [Tree.eqBy, Bool.false_eq_true, false_iff]; intro h; exact (h []).elim
  · -- leaf
    intro x b _ _
    cases b with
    | leaf y =>
      simp only [Tree.eqBy, hf]
      constructor
      · intro h place
        rcases place with _ | ⟨s, r⟩
        · exact h
        · cases s <;> exact trivial
      · intro h; exact h []
    | seq l' => simp only [Tree.eqBy, Bool.false_eq_true, false_iff]; intro h; exact (h []).elim
    | map l' => simp only [Tree.eqBy, Bool.false_eq_true, false_iff]; intro h; exact (h []).elim
    | null => simp only [Tree.eqBy, Bool.false_eq_true, false_iff]; intro h; exact (h []).elim
  · -- []
    intro b _ _
    cases b with
    | nil =>
      simp only [Tree.eqSeq, true_iff]
      intro place
      rcases place with _ | ⟨s, r⟩
      · trivial
      · cases s <;> exact trivial
    | cons y r =>
      simp only [Tree.eqSeq, Bool.false_eq_true, false_iff]
      intro h
      have := h [.pos 0]
      simp only [nodeAt, List.getElem?_nil, List.getElem?_cons_zero, Option.bind_none, Option.bind_some] at this
      obtain ⟨n, hn⟩ := nodeAt_nil_isSome y
      have := sameNode_none_left this
      rw [hn] at this; cases this
  · -- cons
    intro t r iht ihr b ha hb
    cases b with
    | nil =>
      simp only [Tree.eqSeq, Bool.false_eq_true, false_iff]
      intro h
      have := h [.pos 0]
      simp only [nodeAt, List.getElem?_nil, List.getElem?_cons_zero, Option.bind_none, Option.bind_some] at this
      obtain ⟨n, hn⟩ := nodeAt_nil_isSome t
      have := sameNode_none_right this
      rw [hn] at this; cases this
    | cons y r' =>
      simp only [Tree.eqSeq, Bool.and_eq_true, iht y ha.1 hb.1, ihr r' ha.2 hb.2]
      constructor
      · rintro ⟨h1, h2⟩ place
        rcases place with _ | ⟨s, p⟩
        · trivial
        · cases s with
          | key k => exact trivial
          | pos n =>
            cases n with
            | zero => exact h1 p
            | succ n => exact h2 (.pos n :: p)
      · intro h
        refine ⟨fun p => h (.pos 0 :: p), fun place => ?_⟩
        rcases place with _ | ⟨s, p⟩
        · trivial
        · cases s with
          | key k => exact trivial
          | pos n => exact h (.pos (n + 1) :: p)
  · -- map []
    intro _ k t he
    cases he
  · intro k t r iht ihr ha k' t' he
    rw [entry_cons] at he
    by_cases hk : k = k'
    · rw [if_pos hk] at he
      cases he
      exact fun t' ht' => iht t' ha.1 ht'
    · rw [if_neg hk] at he
      exact ihr ha.2 k' t' he

end Rops
