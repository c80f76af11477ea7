import Verif.Lemmas.TomlSections
/-!
# The texts of TOML documents: what is written is read
-/

namespace Rops
open Spec

/-! ## From items to values -/

theorem tomlMap_append (a b : List (Str × TomlItem)) : TomlItem.tomlMap (a ++ b) = TomlItem.tomlMap a ++ TomlItem.tomlMap b := by
  induction a with
  | nil => rw [TomlItem.tomlMap]; rfl
  | cons e a ih =>
    obtain ⟨k, t⟩ := e
    rw [List.cons_append, TomlItem.tomlMap, TomlItem.tomlMap, ih]
    rfl

mutual
theorem tomlMap_sections : ∀ m : List (Str × Toml), TomlItem.tomlMap (sectionItems m) = Toml.sectionEntries m
  | [] => by rw [sectionItems, TomlItem.tomlMap, Toml.sectionEntries]
  | (k, .table m) :: r => by
    rw [sectionItems, TomlItem.tomlMap, TomlItem.toml, tomlMap_append, tomlMap_values, tomlMap_sections m, tomlMap_sections r,
      Toml.sectionEntries, if_pos (show (Toml.table m).section = true from rfl), Toml.order]
  | (k, .array l) :: r => by
    rw [sectionItems, Toml.sectionEntries]
    show _ = if (!l.isEmpty && l.all Toml.isTable) = true then _ else _
    split
    · rename_i h
      have h' := h
      rw [Bool.and_eq_true] at h'
      rw [TomlItem.tomlMap, TomlItem.toml, tomlSeq_elements l h'.2, tomlMap_sections r, Toml.order, if_pos h]
    · exact tomlMap_sections r
  | (_, .str _) :: r => by
    rw [sectionItems, Toml.sectionEntries, if_neg (by exact Bool.false_ne_true)]; exact tomlMap_sections r
    all_goals exact fun _ _ h => nomatch h
  | (_, .int _) :: r => by
    rw [sectionItems, Toml.sectionEntries, if_neg (by exact Bool.false_ne_true)]; exact tomlMap_sections r
    all_goals exact fun _ _ h => nomatch h
  | (_, .float _) :: r => by
    rw [sectionItems, Toml.sectionEntries, if_neg (by exact Bool.false_ne_true)]; exact tomlMap_sections r
    all_goals exact fun _ _ h => nomatch h
  | (_, .bool _) :: r => by
    rw [sectionItems, Toml.sectionEntries, if_neg (by exact Bool.false_ne_true)]; exact tomlMap_sections r
    all_goals exact fun _ _ h => nomatch h
  | (_, .datetime _) :: r => by
    rw [sectionItems, Toml.sectionEntries, if_neg (by exact Bool.false_ne_true)]; exact tomlMap_sections r
    all_goals exact fun _ _ h => nomatch h
theorem tomlSeq_elements : ∀ l : List Toml, l.all Toml.isTable = true → TomlItem.tomlSeq (elementItems l) = Toml.orderSeq l
  | [], _ => by rw [elementItems, TomlItem.tomlSeq, Toml.orderSeq]
  | .table m :: r, h => by
    have h' : r.all Toml.isTable = true := by
      rw [List.all_cons, Bool.and_eq_true] at h; exact h.2
    rw [elementItems, TomlItem.tomlSeq, TomlItem.toml, tomlMap_append, tomlMap_values, tomlMap_sections m, tomlSeq_elements r h',
      Toml.orderSeq, Toml.order]
  | .str _ :: _, h => absurd h (by simp [Toml.isTable])
  | .int _ :: _, h => absurd h (by simp [Toml.isTable])
  | .float _ :: _, h => absurd h (by simp [Toml.isTable])
  | .bool _ :: _, h => absurd h (by simp [Toml.isTable])
  | .datetime _ :: _, h => absurd h (by simp [Toml.isTable])
  | .array _ :: _, h => absurd h (by simp [Toml.isTable])
end

/-! ## The statements are kept -/

/-- As `StmtKept`, with a bound on the paths. -/
def StmtWithin (S : TomlScalars) (n : Nat) : TomlStmt → Prop
  | .entry p _ v => p = [] ∧ TomlSound S v ∧ tomlLevels v < S.limit
  | .table p => p ≠ [] ∧ p.length ≤ n
  | .element p => p ≠ [] ∧ p.length ≤ n

theorem within_mono {S : TomlScalars} {n n' : Nat} (h : n ≤ n') {s : TomlStmt} (hs : StmtWithin S n s) : StmtWithin S n' s := by
  cases s with
  | entry p k v => exact hs
  | table p => exact ⟨hs.1, Nat.le_trans hs.2 h⟩
  | element p => exact ⟨hs.1, Nat.le_trans hs.2 h⟩

theorem within_under {S : TomlScalars} {n : Nat} (k : Str) {s : TomlStmt} (hs : StmtWithin S n s) : StmtWithin S (n + 1) (s.under k) := by
  cases s with
  | entry p k v => exact hs
  | table p => exact ⟨List.cons_ne_nil _ _, Nat.succ_le_succ hs.2⟩
  | element p => exact ⟨List.cons_ne_nil _ _, Nat.succ_le_succ hs.2⟩

theorem within_kept {S : TomlScalars} {n : Nat} (h : n < S.limit) {s : TomlStmt} (hs : StmtWithin S n s) : StmtKept S s := by
  cases s with
  | entry p k v => exact hs
  | table p => exact ⟨hs.1, Nat.lt_of_le_of_lt hs.2 h⟩
  | element p => exact ⟨hs.1, Nat.lt_of_le_of_lt hs.2 h⟩

theorem within_entries {S : TomlScalars} : ∀ {m : List (Str × Toml)}, TomlSoundMap S m → tomlLevelsMap m < S.limit → ∀ n,
    ∀ s ∈ Toml.entryStmts m, StmtWithin S n s
  | [], _, _, _, s, hs => nomatch hs
  | (k, t) :: r, hv, hl, n, s, hs => by
    rw [TomlSoundMap] at hv
    rw [tomlLevelsMap] at hl
    rw [Toml.entryStmts] at hs
    split at hs
    · exact within_entries hv.2 (by omega) n s hs
    · rcases List.mem_cons.1 hs with rfl | hs
      · exact ⟨rfl, hv.1, by omega⟩
      · exact within_entries hv.2 (by omega) n s hs

mutual
theorem within_sections {S : TomlScalars} : ∀ (m : List (Str × Toml)), TomlSoundMap S m → tomlLevelsMap m < S.limit →
    ∀ s ∈ Toml.sectionStmts m, StmtWithin S (tomlLevelsMap m) s
  | [], _, _, s, hs => by rw [Toml.sectionStmts] at hs; cases hs
  | (k, .table m) :: r, hv, hl, s, hs => by
    rw [TomlSoundMap, TomlSound] at hv
    rw [tomlLevelsMap, tomlLevels] at hl ⊢
    rw [Toml.sectionStmts] at hs
    rcases List.mem_append.1 hs with hs | hs
    · rcases List.mem_append.1 hs with hs | hs
      · split at hs
        · rw [List.mem_singleton.1 hs]
          exact ⟨List.cons_ne_nil _ _, by simp only [List.length_cons, List.length_nil]; omega⟩
        · cases hs
      · obtain ⟨s, hs', rfl⟩ := List.mem_map.1 hs
        refine within_mono (Nat.le_max_left _ _) (within_under k ?_)
        rcases List.mem_append.1 hs' with hs | hs
        · exact within_entries hv.1.2 (by omega) _ s hs
        · exact within_sections m hv.1.2 (by omega) s hs
    · exact within_mono (Nat.le_max_right _ _) (within_sections r hv.2 (by omega) s hs)
  | (k, .array l) :: r, hv, hl, s, hs => by
    rw [TomlSoundMap, TomlSound] at hv
    rw [tomlLevelsMap, tomlLevels] at hl ⊢
    rw [Toml.sectionStmts] at hs
    rcases List.mem_append.1 hs with hs | hs
    · split at hs
      · exact within_mono (Nat.le_max_left _ _) (within_elements k l hv.1 (by omega) s hs)
      · cases hs
    · exact within_mono (Nat.le_max_right _ _) (within_sections r hv.2 (by omega) s hs)
  | (_, .str _) :: r, hv, hl, s, hs => by
    rw [TomlSoundMap] at hv
    rw [tomlLevelsMap] at hl ⊢
    rw [Toml.sectionStmts] at hs
    · exact within_mono (Nat.le_max_right _ _) (within_sections r hv.2 (by omega) s hs)
    all_goals exact fun _ _ h => nomatch h
  | (_, .int _) :: r, hv, hl, s, hs => by
    rw [TomlSoundMap] at hv
    rw [tomlLevelsMap] at hl ⊢
    rw [Toml.sectionStmts] at hs
    · exact within_mono (Nat.le_max_right _ _) (within_sections r hv.2 (by omega) s hs)
    all_goals exact fun _ _ h => nomatch h
  | (_, .float _) :: r, hv, hl, s, hs => by
    rw [TomlSoundMap] at hv
    rw [tomlLevelsMap] at hl ⊢
    rw [Toml.sectionStmts] at hs
    · exact within_mono (Nat.le_max_right _ _) (within_sections r hv.2 (by omega) s hs)
    all_goals exact fun _ _ h => nomatch h
  | (_, .bool _) :: r, hv, hl, s, hs => by
    rw [TomlSoundMap] at hv
    rw [tomlLevelsMap] at hl ⊢
    rw [Toml.sectionStmts] at hs
    · exact within_mono (Nat.le_max_right _ _) (within_sections r hv.2 (by omega) s hs)
    all_goals exact fun _ _ h => nomatch h
  | (_, .datetime _) :: r, hv, hl, s, hs => by
    rw [TomlSoundMap] at hv
    rw [tomlLevelsMap] at hl ⊢
    rw [Toml.sectionStmts] at hs
    · exact within_mono (Nat.le_max_right _ _) (within_sections r hv.2 (by omega) s hs)
    all_goals exact fun _ _ h => nomatch h
theorem within_elements {S : TomlScalars} (k : Str) : ∀ (l : List Toml), TomlSoundSeq S l → tomlLevelsSeq l < S.limit →
    ∀ s ∈ Toml.elementStmts k l, StmtWithin S (tomlLevelsSeq l + 1) s
  | [], _, _, s, hs => by rw [Toml.elementStmts] at hs; cases hs
  | .table m :: r, hv, hl, s, hs => by
    rw [TomlSoundSeq, TomlSound] at hv
    rw [tomlLevelsSeq, tomlLevels] at hl ⊢
    rw [Toml.elementStmts] at hs
    rcases List.mem_append.1 hs with hs | hs
    · rcases List.mem_cons.1 hs with rfl | hs
      · exact ⟨List.cons_ne_nil _ _, by simp only [List.length_cons, List.length_nil]; omega⟩
      · obtain ⟨s, hs', rfl⟩ := List.mem_map.1 hs
        refine within_mono (n := tomlLevelsMap m + 1) (by omega) (within_under k ?_)
        rcases List.mem_append.1 hs' with hs | hs
        · exact within_entries hv.1.2 (by omega) _ s hs
        · exact within_sections m hv.1.2 (by omega) s hs
    · exact within_mono (by omega) (within_elements k r hv.2 (by omega) s hs)
  | .str _ :: r, hv, hl, s, hs => by
    rw [TomlSoundSeq] at hv
    rw [tomlLevelsSeq] at hl ⊢
    rw [Toml.elementStmts] at hs
    · exact within_mono (by omega) (within_elements k r hv.2 (by omega) s hs)
    all_goals exact fun _ h => nomatch h
  | .int _ :: r, hv, hl, s, hs => by
    rw [TomlSoundSeq] at hv
    rw [tomlLevelsSeq] at hl ⊢
    rw [Toml.elementStmts] at hs
    · exact within_mono (by omega) (within_elements k r hv.2 (by omega) s hs)
    all_goals exact fun _ h => nomatch h
  | .float _ :: r, hv, hl, s, hs => by
    rw [TomlSoundSeq] at hv
    rw [tomlLevelsSeq] at hl ⊢
    rw [Toml.elementStmts] at hs
    · exact within_mono (by omega) (within_elements k r hv.2 (by omega) s hs)
    all_goals exact fun _ h => nomatch h
  | .bool _ :: r, hv, hl, s, hs => by
    rw [TomlSoundSeq] at hv
    rw [tomlLevelsSeq] at hl ⊢
    rw [Toml.elementStmts] at hs
    · exact within_mono (by omega) (within_elements k r hv.2 (by omega) s hs)
    all_goals exact fun _ h => nomatch h
  | .datetime _ :: r, hv, hl, s, hs => by
    rw [TomlSoundSeq] at hv
    rw [tomlLevelsSeq] at hl ⊢
    rw [Toml.elementStmts] at hs
    · exact within_mono (by omega) (within_elements k r hv.2 (by omega) s hs)
    all_goals exact fun _ h => nomatch h
  | .array _ :: r, hv, hl, s, hs => by
    rw [TomlSoundSeq] at hv
    rw [tomlLevelsSeq] at hl ⊢
    rw [Toml.elementStmts] at hs
    · exact within_mono (by omega) (within_elements k r hv.2 (by omega) s hs)
    all_goals exact fun _ h => nomatch h
end

/-! ## Documents -/

theorem tomlLines_mark {S : TomlScalars} {l : List TomlStmt} (h : ∀ s ∈ l, StmtKept S s) : tomlMark (tomlLines true l) = tomlLines true l := by
  have key : ∀ (c : Char) (r : Str), c.toNat ≠ 0xFEFF → tomlMark (c :: r) = c :: r := by
    intro c r h
    unfold tomlMark
    simp only [if_neg h]
  cases l with
  | nil => rfl
  | cons s l =>
    have hs := h s (by simp)
    cases s with
    | entry p k v =>
      obtain ⟨rfl, _, _⟩ := hs
      obtain ⟨c, r, h, hc⟩ := tomlKey_head k
      rw [tomlLines, List.nil_append, tomlPath, h, List.cons_append]
      refine key c _ ?_
      intro he
      rw [toNat_eq_char he] at hc
      exact absurd hc (by decide)
    | table p =>
      rw [tomlLines, if_pos rfl, List.nil_append]
      exact key '[' _ (by decide)
    | element p =>
      rw [tomlLines, if_pos rfl, List.nil_append]
      exact key '[' _ (by decide)

theorem toml_parse_render {S : TomlScalars} {m : List (Str × Toml)} (h : TomlWritable S m) :
    Toml.parse S (Toml.render m) = some (Toml.plainEntries m ++ Toml.sectionEntries m) := by
  have hl := h.levels
  have hv := h.sound
  rw [TomlSound] at hv
  rw [tomlLevels] at hl
  have hk : ∀ s ∈ Toml.entryStmts m ++ Toml.sectionStmts m, StmtKept S s := by
    intro s hs
    rcases List.mem_append.1 hs with hs | hs
    · exact within_kept (n := tomlLevelsMap m) (by omega) (within_entries hv.2 (by omega) _ s hs)
    · exact within_kept (n := tomlLevelsMap m) (by omega) (within_sections m hv.2 (by omega) s hs)
  have hb := applyAll_body hv.1 (applyAll_sections m hv.2 hv.1) false
  by_cases h1 : 1 < S.limit
  · unfold Toml.parse Toml.render
    rw [tomlLines_mark hk, tomlStmts_lines h1 hk (Nat.lt_succ_self _)]
    simp only
    rw [hb]
    simp only [tomlMap_append, tomlMap_values, tomlMap_sections]
  · omega

end Rops
