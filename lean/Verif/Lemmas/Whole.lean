import Verif.Lemmas.TomlFiles
/-!
# Lemmas for C91: TOML documents with texts in place of dates
-/

namespace Rops

open Spec

theorem isTable_undated (t : Toml) : (tomlUndated t).isTable = t.isTable := by
  cases t <;> rw [tomlUndated] <;> first | rfl | (intros; contradiction)

theorem isTables_undated (l : List Toml) : (tomlUndatedSeq l).all Toml.isTable = l.all Toml.isTable := by
  induction l with
  | nil => rfl
  | cons t r ih => rw [tomlUndatedSeq, List.all_cons, List.all_cons, isTable_undated, ih]

theorem isEmpty_undated (l : List Toml) : (tomlUndatedSeq l).isEmpty = l.isEmpty := by
  cases l <;> rw [tomlUndatedSeq] <;> rfl

theorem section_undated (t : Toml) : (tomlUndated t).section = t.section := by
  cases t with
  | array l =>
    rw [tomlUndated]
    show (!(tomlUndatedSeq l).isEmpty && (tomlUndatedSeq l).all Toml.isTable) = (!l.isEmpty && l.all Toml.isTable)
    rw [isTables_undated, isEmpty_undated]
  | table m => rw [tomlUndated]; rfl
  | datetime s => rw [tomlUndated]; rfl
  | str s => rfl
  | int s => rfl
  | float s => rfl
  | bool s => rfl

theorem keys_undated (m : List (Str × Toml)) : (tomlUndatedMap m).map Prod.fst = m.map Prod.fst := by
  induction m with
  | nil => rfl
  | cons e r ih => obtain ⟨k, t⟩ := e; rw [tomlUndatedMap, List.map_cons, List.map_cons, ih]

theorem undated_sound {S : TomlScalars} :
    (∀ t : Toml, TomlSound S t → TomlSound S (tomlUndated t)) ∧ (∀ l : List Toml, TomlSoundSeq S l → TomlSoundSeq S (tomlUndatedSeq l)) ∧
    (∀ m : List (Str × Toml), TomlSoundMap S m → TomlSoundMap S (tomlUndatedMap m)) := by
  apply Toml.induct
  · intro s h; exact h
  · intro s h; exact h
  · intro s h; exact h
  · intro s h; exact h
  · intro s _; exact trivial
  · intro l ih h; exact ih h
  · intro m ih h
    exact ⟨by rw [keys_undated]; exact h.1, ih h.2⟩
  · intro _; exact trivial
  · intro t r h1 h2 h; exact ⟨h1 h.1, h2 h.2⟩
  · intro _; exact trivial
  · intro k t r h1 h2 h; exact ⟨h1 h.1, h2 h.2⟩

theorem undated_levels :
    (∀ t : Toml, tomlLevels (tomlUndated t) = tomlLevels t) ∧ (∀ l : List Toml, tomlLevelsSeq (tomlUndatedSeq l) = tomlLevelsSeq l) ∧
    (∀ m : List (Str × Toml), tomlLevelsMap (tomlUndatedMap m) = tomlLevelsMap m) := by
  apply Toml.induct
  · intro s; rfl
  · intro s; rfl
  · intro s; rfl
  · intro s; rfl
  · intro s; rfl
  · intro l ih; exact congrArg (· + 1) ih
  · intro m ih; exact congrArg (· + 1) ih
  · rfl
  · intro t r h1 h2; rw [tomlUndatedSeq, tomlLevelsSeq, h1, h2]; rfl
  · rfl
  · intro k t r h1 h2; rw [tomlUndatedMap, tomlLevelsMap, h1, h2]; rfl

theorem undated_order :
    (∀ t : Toml, ValuesFirst (tomlDoc t) → ValuesFirst (tomlDoc (tomlUndated t))) ∧
    (∀ l : List Toml, ValuesFirstSeq (tomlSeq l) → ValuesFirstSeq (tomlSeq (tomlUndatedSeq l))) ∧
    (∀ m : List (Str × Toml), ValuesFirstMap (tomlMap m) → ValuesFirstMap (tomlMap (tomlUndatedMap m)) ∧
      ((∀ e ∈ tomlMap m, isSection e.2 = true) → ∀ e ∈ tomlMap (tomlUndatedMap m), isSection e.2 = true)) := by
  apply Toml.induct
  · intro s h; exact h
  · intro s h; exact h
  · intro s h; exact h
  · intro s h; exact h
  · intro s _; rw [tomlUndated, tomlDoc]; split <;> exact trivial
  · intro l ih h
    rw [tomlDoc, ValuesFirst, sectionSeq_tomlDoc] at h
    rw [tomlUndated, tomlDoc, ValuesFirst, sectionSeq_tomlDoc, isTables_undated, isEmpty_undated]
    exact fun hs => ih (h hs)
  · intro m ih h
    rw [tomlDoc, ValuesFirst] at h
    rw [tomlUndated, tomlDoc, ValuesFirst]
    exact (ih h).1
  · intro _; exact trivial
  · intro t r h1 h2 h; exact ⟨h1 h.1, h2 h.2⟩
  · intro _; exact ⟨trivial, fun _ e he => by cases he⟩
  · intro k t r h1 h2 h
    rw [tomlMap, ValuesFirstMap] at h
    rw [tomlUndatedMap, tomlMap, ValuesFirstMap]
    obtain ⟨h3, h4⟩ := h2 h.2.2
    refine ⟨⟨fun hs => h4 (h.1 ?_), h1 h.2.1, h3⟩, fun ha e he => ?_⟩
    · rwa [isSection_tomlDoc, section_undated, ← isSection_tomlDoc] at hs
    · rcases List.mem_cons.1 he with rfl | he
      · have := ha (k, tomlDoc t) (by rw [tomlMap]; exact .head _)
        rw [isSection_tomlDoc] at this ⊢
        rw [section_undated]; exact this
      · exact h4 (fun e he => ha e (by rw [tomlMap]; exact .tail _ he)) e he

end Rops
