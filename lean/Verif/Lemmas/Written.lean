import Verif.Lemmas.Format
/-! Lemmas about the documents written. -/

namespace Rops
open Spec

theorem numberScalar_ofI64 (i : Int64) : numberScalar (Number.ofI64 i) = .int i.toInt := by
  have h := Number.toInternal_ofI64 i
  rw [rd_number] at h
  obtain ⟨n, hn⟩ : ∃ n, numberScalar (Number.ofI64 i) = .int n := by
    unfold Number.ofI64
    split <;> exact ⟨_, rfl⟩
  rw [hn] at h ⊢
  obtain ⟨j, h1, h2⟩ := rd_iff.1 h
  cases h1
  rw [h2]

theorem jsonScalar_ofInternal {v : Value} {s : JsonScalar} (h : JsonScalar.ofInternal v = some s) :
    jsonScalar s = valueScalar v := by
  cases v with
  | string t => cases h; rfl
  | boolean b => cases h; rfl
  | integer i => cases h; exact numberScalar_ofI64 i
  | float t =>
    simp only [JsonScalar.ofInternal] at h
    split at h
    · cases h; rfl
    · cases h

theorem jsonScalar_encOfInternal {C : Cipher} {v : EncLeaf} {s : JsonScalar} (h : JsonScalar.encOfInternal C v = some s) :
    jsonScalar s = encScalar C v := by
  cases v with
  | encrypted e => cases h; simp [jsonScalar, encScalar, EncValue.toText_eq]
  | escaped v => exact jsonScalar_ofInternal h

theorem json_written {α : Type} {f : α → Option JsonScalar} {g : α → Scalar} (hf : ∀ a s, f a = some s → jsonScalar s = g a) :
    (∀ t : Tree α, ∀ x, Tree.mapM f t = some x → shape (jsonDoc x) = shape t ∧
      ∀ p, leavesAt p (jsonDoc x) = (leavesAt p t).map fun pv => (pv.1, g pv.2)) ∧
    (∀ t : List (Tree α), ∀ x, Tree.mapSeqM f t = some x → shapeSeq (jsonSeq x) = shapeSeq t ∧
      ∀ p, leavesSeq p (jsonSeq x) = (leavesSeq p t).map fun pv => (pv.1, g pv.2)) ∧
    (∀ t : RMap α, ∀ x, Tree.mapMapM f t = some x → shapeMap (jsonMap x) = shapeMap t ∧
      ∀ p, leavesMap p (jsonMap x) = (leavesMap p t).map fun pv => (pv.1, g pv.2)) := by
  apply Tree.induct
  · intro l ih x h
    simp only [Tree.mapM] at h
    split at h
    · rename_i l' hl
      cases h
      simp only [jsonDoc, shape, leavesAt, (ih l' hl).1]
      exact ⟨trivial, (ih l' hl).2⟩
    · cases h
  · intro l ih x h
    simp only [Tree.mapM] at h
    split at h
    · rename_i l' hl
      cases h
      simp only [jsonDoc, shape, leavesAt, (ih l' hl).1]
      exact ⟨trivial, (ih l' hl).2⟩
    · cases h
  · intro x h
    cases h
    simp [jsonDoc, shape, leavesAt]
  · intro a x h
    simp only [Tree.mapM] at h
    split at h
    · rename_i b hb
      cases h
      simp [jsonDoc, shape, leavesAt, hf a b hb]
    · cases h
  · intro x h
    cases h
    simp [jsonSeq, shapeSeq, leavesSeq]
  · intro t r iht ihr x h
    simp only [Tree.mapSeqM] at h
    split at h
    · rename_i t' ht
      split at h
      · rename_i r' hr
        cases h
        simp only [jsonSeq, shapeSeq, leavesSeq, (iht t' ht).1, (ihr r' hr).1, (iht t' ht).2, (ihr r' hr).2, List.map_append]
        exact ⟨trivial, fun _ => trivial⟩
      · cases h
    · cases h
  · intro x h
    cases h
    simp [jsonMap, shapeMap, leavesMap]
  · intro k t r iht ihr x h
    simp only [Tree.mapMapM] at h
    split at h
    · rename_i t' ht
      split at h
      · rename_i r' hr
        cases h
        simp only [jsonMap, shapeMap, leavesMap, (iht t' ht).1, (ihr r' hr).1, (iht t' ht).2, (ihr r' hr).2, List.map_append]
        exact ⟨trivial, fun _ => trivial⟩
      · cases h
    · cases h

theorem yaml_written {α : Type} {f : α → Yaml} {g : α → Scalar}
    (hf : ∀ a, yamlDoc (f a) = some (.leaf (g a)) ∧ Untagged (f a)) :
    (∀ t : Tree α, ∃ d, yamlDoc (Yaml.ofTree f t) = some d ∧ Untagged (Yaml.ofTree f t) ∧ shape d = shape t ∧
      ∀ p, leavesAt p d = (leavesAt p t).map fun pv => (pv.1, g pv.2)) ∧
    (∀ t : List (Tree α), ∃ d, yamlSeq (Yaml.ofSeq f t) = some d ∧ UntaggedSeq (Yaml.ofSeq f t) ∧ shapeSeq d = shapeSeq t ∧
      ∀ p, leavesSeq p d = (leavesSeq p t).map fun pv => (pv.1, g pv.2)) ∧
    (∀ t : RMap α, ∃ d, yamlMap (Yaml.ofMap f t) = some d ∧ UntaggedMap (Yaml.ofMap f t) ∧ shapeMap d = shapeMap t ∧
      ∀ p, leavesMap p d = (leavesMap p t).map fun pv => (pv.1, g pv.2)) := by
  apply Tree.induct
  · rintro l ⟨d, h1, h2, h3, h4⟩
    exact ⟨.seq d, by simp [Yaml.ofTree, yamlDoc, h1], by simpa [Yaml.ofTree, Untagged] using h2, by simp [shape, h3],
      by simpa [leavesAt] using h4⟩
  · rintro l ⟨d, h1, h2, h3, h4⟩
    exact ⟨.map d, by simp [Yaml.ofTree, yamlDoc, h1], by simpa [Yaml.ofTree, Untagged] using h2, by simp [shape, h3],
      by simpa [leavesAt] using h4⟩
  · exact ⟨.null, by simp [Yaml.ofTree, yamlDoc], by simp [Yaml.ofTree, Untagged], by simp [shape], by simp [leavesAt]⟩
  · intro a
    exact ⟨.leaf (g a), by simp [Yaml.ofTree, (hf a).1], by simpa [Yaml.ofTree] using (hf a).2, by simp [shape],
      by simp [leavesAt]⟩
  · exact ⟨[], by simp [Yaml.ofSeq, yamlSeq], by simp [Yaml.ofSeq, UntaggedSeq], by simp [shapeSeq], by simp [leavesSeq]⟩
  · rintro t r ⟨d, h1, h2, h3, h4⟩ ⟨e, g1, g2, g3, g4⟩
    exact ⟨d :: e, by simp [Yaml.ofSeq, yamlSeq, h1, g1], by simp [Yaml.ofSeq, UntaggedSeq, h2, g2],
      by simp [shapeSeq, h3, g3], by simp [leavesSeq, h4, g4]⟩
  · exact ⟨[], by simp [Yaml.ofMap, yamlMap], by simp [Yaml.ofMap, UntaggedMap], by simp [shapeMap], by simp [leavesMap]⟩
  · rintro k t r ⟨d, h1, h2, h3, h4⟩ ⟨e, g1, g2, g3, g4⟩
    exact ⟨(k, d) :: e, by simp [Yaml.ofMap, yamlMap, h1, g1], by simp [Yaml.ofMap, UntaggedMap, Untagged, h2, g2],
      by simp [shapeMap, h3, g3], by simp [leavesMap, h4, g4]⟩

theorem yaml_ofValue (v : Value) : yamlDoc (Yaml.ofValue v) = some (.leaf (valueScalar v)) ∧ Untagged (Yaml.ofValue v) := by
  cases v <;> simp [Yaml.ofValue, yamlDoc, valueScalar, Untagged, numberScalar_ofI64]
  rfl

theorem yaml_ofEncLeaf (C : Cipher) (v : EncLeaf) :
    yamlDoc (Yaml.ofEncLeaf C v) = some (.leaf (encScalar C v)) ∧ Untagged (Yaml.ofEncLeaf C v) := by
  cases v with
  | encrypted e => simp [Yaml.ofEncLeaf, yamlDoc, encScalar, Untagged, EncValue.toText_eq]
  | escaped v => exact yaml_ofValue v

theorem toml_written {α : Type} {f : α → Toml} {g : α → Scalar} :
    (∀ t : Tree α, ∀ p, (∀ pv ∈ leavesAt p t, tomlDoc (f pv.2) = .leaf (g pv.2)) →
      shape (tomlDoc (Toml.ofTree f t)) = shape t ∧
      leavesAt p (tomlDoc (Toml.ofTree f t)) = (leavesAt p t).map fun pv => (pv.1, g pv.2)) ∧
    (∀ t : List (Tree α), ∀ p, (∀ pv ∈ leavesSeq p t, tomlDoc (f pv.2) = .leaf (g pv.2)) →
      shapeSeq (tomlSeq (Toml.ofSeq f t)) = shapeSeq t ∧
      leavesSeq p (tomlSeq (Toml.ofSeq f t)) = (leavesSeq p t).map fun pv => (pv.1, g pv.2)) ∧
    (∀ t : RMap α, ∀ p, (∀ pv ∈ leavesMap p t, tomlDoc (f pv.2) = .leaf (g pv.2)) →
      shapeMap (tomlMap (Toml.ofMap f t)) = shapeMap t ∧
      leavesMap p (tomlMap (Toml.ofMap f t)) = (leavesMap p t).map fun pv => (pv.1, g pv.2)) := by
  apply Tree.induct
  · intro l ih p h
    simp only [leavesAt] at h
    obtain ⟨h1, h2⟩ := ih p h
    simp [Toml.ofTree, tomlDoc, shape, leavesAt, h1, h2]
  · intro l ih p h
    simp only [leavesAt] at h
    obtain ⟨h1, h2⟩ := ih p h
    simp [Toml.ofTree, tomlDoc, shape, leavesAt, h1, h2]
  · intro p _
    simp [Toml.ofTree, tomlDoc, tomlNull, shape, leavesAt]
  · intro a p h
    have := h (p, a) (by simp [leavesAt])
    simp [Toml.ofTree, this, shape, leavesAt]
  · intro p _
    simp [Toml.ofSeq, tomlSeq, shapeSeq, leavesSeq]
  · intro t r iht ihr p h
    simp only [leavesSeq, List.mem_append] at h
    obtain ⟨h1, h2⟩ := iht p fun pv hp => h pv (.inl hp)
    obtain ⟨h3, h4⟩ := ihr p fun pv hp => h pv (.inr hp)
    simp [Toml.ofSeq, tomlSeq, shapeSeq, leavesSeq, h1, h2, h3, h4]
  · intro p _
    simp [Toml.ofMap, tomlMap, shapeMap, leavesMap]
  · intro k t r iht ihr p h
    simp only [leavesMap, List.mem_append] at h
    obtain ⟨h1, h2⟩ := iht (p ++ [k]) fun pv hp => h pv (.inl hp)
    obtain ⟨h3, h4⟩ := ihr p fun pv hp => h pv (.inr hp)
    simp [Toml.ofMap, tomlMap, shapeMap, leavesMap, h1, h2, h3, h4]

theorem toml_ofValue {v : Value} (h : tomlRep v) : tomlDoc (Toml.ofValue v) = .leaf (valueScalar v) := by
  cases v with
  | string s =>
    have : s ≠ c!"null" := fun e => h (by rw [e])
    simp [Toml.ofValue, tomlDoc, valueScalar, this]
  | _ => simp [Toml.ofValue, tomlDoc, valueScalar]

theorem toml_ofEncLeaf {C : Cipher} {l : EncLeaf} (h : ∀ v, l = .escaped v → tomlRep v) :
    tomlDoc (Toml.ofEncLeaf C l) = .leaf (encScalar C l) := by
  cases l with
  | encrypted e =>
    have := EncValue.toText_ne_null C e
    unfold tomlNull at this
    simp [Toml.ofEncLeaf, tomlDoc, encScalar, this]
    exact EncValue.toText_eq C e
  | escaped v => exact toml_ofValue (h v rfl)

end Rops
