import Verif.Lemmas.Format
import Verif.Model.Cli
/-!
# Encrypted documents can be represented

What is read as an encrypted document is also read as a plaintext one, and so is metadata.
-/

namespace Rops
open Spec

theorem JsonScalar.toInternal_of_enc {C : Cipher} {b : Bool} {s : JsonScalar} {l : EncLeaf}
    (h : s.encToInternal C b = .ok l) : ∃ v, s.toInternal = .ok v := by
  cases s with
  | bool b => exact ⟨_, rfl⟩
  | str s => exact ⟨_, rfl⟩
  | num n =>
    simp only [JsonScalar.encToInternal] at h
    split at h
    · split at h
      · rename_i v hv; exact ⟨v, hv⟩
      · cases h
    · cases h

theorem Json.to_of_enc (C : Cipher) (rx : RegexMatch) :
    (∀ t : Json, ∀ res y, Json.encToTree C rx res t = .ok y → ∃ x, Json.toTree t = .ok x) ∧
    (∀ l : List Json, ∀ res y, Json.encToSeq C rx res l = .ok y → ∃ x, Json.toSeq l = .ok x) ∧
    (∀ m : RMap JsonScalar, ∀ res y, Json.encToMap C rx res m = .ok y → ∃ x, Json.toMap m = .ok x) := by
  apply Tree.induct
  · intro l ih res y h
    simp only [Json.encToTree] at h
    split at h
    · rename_i y' hy
      obtain ⟨x, hx⟩ := ih res y' hy
      exact ⟨_, by simp only [Json.toTree, hx]; rfl⟩
    · cases h
  · intro m ih res y h
    simp only [Json.encToTree] at h
    split at h
    · rename_i y' hy
      obtain ⟨x, hx⟩ := ih res y' hy
      exact ⟨_, by simp only [Json.toTree, hx]; rfl⟩
    · cases h
  · intro res y h
    exact ⟨_, rfl⟩
  · intro s res y h
    simp only [Json.encToTree] at h
    split at h
    · rename_i y' hy
      obtain ⟨x, hx⟩ := JsonScalar.toInternal_of_enc hy
      exact ⟨_, by simp only [Json.toTree, hx]; rfl⟩
    · cases h
  · intro res y h
    exact ⟨_, rfl⟩
  · intro t r iht ihr res y h
    simp only [Json.encToSeq] at h
    split at h
    · rename_i y1 h1
      split at h
      · rename_i y2 h2
        obtain ⟨x1, hx1⟩ := iht _ _ h1
        obtain ⟨x2, hx2⟩ := ihr _ _ h2
        exact ⟨_, by simp only [Json.toSeq, hx1, hx2]; rfl⟩
      · cases h
    · cases h
  · intro res y h
    exact ⟨_, rfl⟩
  · intro k t r iht ihr res y h
    simp only [Json.encToMap] at h
    split at h
    · rename_i y1 h1
      split at h
      · rename_i y2 h2
        obtain ⟨x1, hx1⟩ := iht _ _ h1
        obtain ⟨x2, hx2⟩ := ihr _ _ h2
        exact ⟨_, by simp only [Json.toMap, hx1, hx2]; rfl⟩
      · cases h
    · cases h

theorem Yaml.to_of_enc (C : Cipher) (rx : RegexMatch) :
    (∀ t : Yaml, ∀ res y, Yaml.encToTree C rx res t = .ok y → ∃ x, Yaml.toTree t = .ok x) ∧
    (∀ l : List Yaml, ∀ res y, Yaml.encToSeq C rx res l = .ok y → ∃ x, Yaml.toSeq l = .ok x) ∧
    (∀ m : List (Yaml × Yaml), ∀ res y, Yaml.encToMap C rx res m = .ok y → ∃ x, Yaml.toMap m = .ok x) := by
  apply Yaml.induct
  · intro res y h; exact ⟨_, by simp only [Yaml.toTree]; rfl⟩
  · intro b res y h; exact ⟨_, by simp only [Yaml.toTree]; rfl⟩
  · intro n res y h
    simp only [Yaml.encToTree] at h
    split at h
    · split at h
      · rename_i v hv
        exact ⟨_, by simp only [Yaml.toTree, hv]; rfl⟩
      · cases h
    · cases h
  · intro b res y h; exact ⟨_, by simp only [Yaml.toTree]; rfl⟩
  · intro l ih res y h
    simp only [Yaml.encToTree] at h
    split at h
    · rename_i y' hy
      obtain ⟨x, hx⟩ := ih res y' hy
      exact ⟨_, by simp only [Yaml.toTree, hx]; rfl⟩
    · cases h
  · intro m ih res y h
    simp only [Yaml.encToTree] at h
    split at h
    · rename_i y' hy
      obtain ⟨x, hx⟩ := ih res y' hy
      exact ⟨_, by simp only [Yaml.toTree, hx]; rfl⟩
    · cases h
  · intro s v ih res y h
    simp only [Yaml.encToTree] at h
    obtain ⟨x, hx⟩ := ih res y h
    exact ⟨x, by simp only [Yaml.toTree, hx]⟩
  · intro res y h; exact ⟨_, by simp only [Yaml.toSeq]; rfl⟩
  · intro t r iht ihr res y h
    simp only [Yaml.encToSeq] at h
    split at h
    · rename_i y1 h1
      split at h
      · rename_i y2 h2
        obtain ⟨x1, hx1⟩ := iht _ _ h1
        obtain ⟨x2, hx2⟩ := ihr _ _ h2
        exact ⟨_, by simp only [Yaml.toSeq, hx1, hx2]; rfl⟩
      · cases h
    · cases h
  · intro res y h; exact ⟨_, by simp only [Yaml.toMap]; rfl⟩
  · intro k t r _ iht ihr res y h
    simp only [Yaml.encToMap] at h
    split at h
    · cases h
    · rename_i k' hk
      split at h
      · rename_i y1 h1
        split at h
        · rename_i y2 h2
          obtain ⟨x1, hx1⟩ := iht _ _ h1
          obtain ⟨x2, hx2⟩ := ihr _ _ h2
          exact ⟨_, by simp only [Yaml.toMap, hk, hx1, hx2]; rfl⟩
        · cases h
      · cases h

theorem Toml.to_total :
    (∀ t : Toml, ∃ x, Toml.toTree t = .ok x) ∧ (∀ l : List Toml, ∃ x, Toml.toSeq l = .ok x) ∧
    (∀ m : List (Str × Toml), ∃ x, Toml.toMap m = .ok x) := by
  apply Toml.induct
  · intro s
    by_cases h : s = tomlNull
    · exact ⟨_, by simp only [Toml.toTree, if_pos h]; rfl⟩
    · exact ⟨_, by simp only [Toml.toTree, if_neg h]; rfl⟩
  · intro n; exact ⟨_, by simp only [Toml.toTree]; rfl⟩
  · intro n; exact ⟨_, by simp only [Toml.toTree]; rfl⟩
  · intro n; exact ⟨_, by simp only [Toml.toTree]; rfl⟩
  · intro n; exact ⟨_, by simp only [Toml.toTree]; rfl⟩
  · rintro l ⟨x, hx⟩; exact ⟨_, by simp only [Toml.toTree, hx]; rfl⟩
  · rintro l ⟨x, hx⟩; exact ⟨_, by simp only [Toml.toTree, hx]; rfl⟩
  · exact ⟨_, by simp only [Toml.toSeq]; rfl⟩
  · rintro t r ⟨x, hx⟩ ⟨y, hy⟩; exact ⟨_, by simp only [Toml.toSeq, hx, hy]; rfl⟩
  · exact ⟨_, by simp only [Toml.toMap]; rfl⟩
  · rintro k t r ⟨x, hx⟩ ⟨y, hy⟩; exact ⟨_, by simp only [Toml.toMap, hx, hy]; rfl⟩

theorem Json.toMap_append {a b : RMap JsonScalar} (ha : ∃ x, Json.toMap a = .ok x) (hb : ∃ x, Json.toMap b = .ok x) :
    ∃ x, Json.toMap (a ++ b) = .ok x := by
  induction a with
  | nil => exact hb
  | cons e r ih =>
    obtain ⟨k, t⟩ := e
    obtain ⟨x, hx⟩ := ha
    simp only [Json.toMap] at hx
    split at hx
    · rename_i y1 h1
      split at hx
      · rename_i y2 h2
        obtain ⟨z, hz⟩ := ih ⟨_, h2⟩
        exact ⟨_, by simp only [List.cons_append, Json.toMap, h1, hz]; rfl⟩
      · cases hx
    · cases hx

theorem Yaml.toMap_append {a b : List (Yaml × Yaml)} (ha : ∃ x, Yaml.toMap a = .ok x) (hb : ∃ x, Yaml.toMap b = .ok x) :
    ∃ x, Yaml.toMap (a ++ b) = .ok x := by
  induction a with
  | nil => exact hb
  | cons e r ih =>
    obtain ⟨k, t⟩ := e
    obtain ⟨x, hx⟩ := ha
    simp only [Yaml.toMap] at hx
    split at hx
    · cases hx
    · rename_i k' hk
      split at hx
      · rename_i y1 h1
        split at hx
        · rename_i y2 h2
          obtain ⟨z, hz⟩ := ih ⟨_, h2⟩
          exact ⟨_, by simp only [List.cons_append, Yaml.toMap, hk, h1, hz]; rfl⟩
        · cases hx
      · cases hx

theorem Yaml.to_ofScalar :
    (∀ t : Json, ∀ x, Json.toTree t = .ok x → Yaml.toTree (Yaml.ofTree Yaml.ofScalar t) = .ok x) ∧
    (∀ l : List Json, ∀ x, Json.toSeq l = .ok x → Yaml.toSeq (Yaml.ofSeq Yaml.ofScalar l) = .ok x) ∧
    (∀ m : RMap JsonScalar, ∀ x, Json.toMap m = .ok x → Yaml.toMap (Yaml.ofMap Yaml.ofScalar m) = .ok x) := by
  apply Tree.induct
  · intro l ih x h
    simp only [Json.toTree] at h
    split at h
    · rename_i y hy
      cases h
      simp only [Yaml.ofTree, Yaml.toTree, ih _ hy]
    · cases h
  · intro l ih x h
    simp only [Json.toTree] at h
    split at h
    · rename_i y hy
      cases h
      simp only [Yaml.ofTree, Yaml.toTree, ih _ hy]
    · cases h
  · intro x h
    simp only [Json.toTree] at h
    cases h
    simp only [Yaml.ofTree, Yaml.toTree]
  · intro s x h
    simp only [Json.toTree] at h
    cases s with
    | bool b => cases h; simp only [Yaml.ofTree, Yaml.ofScalar, Yaml.toTree]
    | str b => cases h; simp only [Yaml.ofTree, Yaml.ofScalar, Yaml.toTree]
    | num n =>
      simp only [JsonScalar.toInternal] at h
      simp only [Yaml.ofTree, Yaml.ofScalar, Yaml.toTree]
      exact h
  · intro x h
    cases h
    simp only [Yaml.ofSeq, Yaml.toSeq]
  · intro t r iht ihr x h
    simp only [Json.toSeq] at h
    split at h
    · rename_i y1 h1
      split at h
      · rename_i y2 h2
        cases h
        simp only [Yaml.ofSeq, Yaml.toSeq, iht _ h1, ihr _ h2]
      · cases h
    · cases h
  · intro x h
    cases h
    simp only [Yaml.ofMap, Yaml.toMap]
  · intro k t r iht ihr x h
    simp only [Json.toMap] at h
    split at h
    · rename_i y1 h1
      split at h
      · rename_i y2 h2
        cases h
        simp only [Yaml.ofMap, Yaml.toMap, Yaml.validateKey, iht _ h1, ihr _ h2]
      · cases h
    · cases h

theorem IUnit.toDoc_read {k : Kind} (u : IUnit k) : ∃ x, Json.toMap u.toDoc = .ok x := by
  unfold IUnit.toDoc
  refine Json.toMap_append (Json.toMap_append ?_ ?_) ⟨_, rfl⟩
  · cases k <;> exact ⟨_, rfl⟩
  · cases u.createdAt <;> exact ⟨_, rfl⟩

theorem Units.toDoc_read {k : Kind} (us : Units k) : ∃ x, Json.toTree us.toDoc = .ok x := by
  have h : ∃ x, Json.toSeq (us.map fun u => .map u.toDoc) = .ok x := by
    induction us with
    | nil => exact ⟨_, rfl⟩
    | cons u r ih =>
      obtain ⟨x, hx⟩ := ih
      obtain ⟨y, hy⟩ := u.toDoc_read
      exact ⟨_, by simp only [List.map_cons, Json.toSeq, Json.toTree, hy, hx]; rfl⟩
  obtain ⟨x, hx⟩ := h
  exact ⟨_, by simp only [Units.toDoc, Json.toTree, hx]; rfl⟩

theorem unitsField_read {k : Kind} (n : Str) (us : Units k) : ∃ x, Json.toMap (unitsField n us) = .ok x := by
  unfold unitsField
  split
  · exact ⟨_, rfl⟩
  · obtain ⟨x, hx⟩ := us.toDoc_read
    exact ⟨_, by simp only [Json.toMap, hx]; rfl⟩

theorem Metadata.toDoc_read {M : Type} (showMac : M → Str) (md : Metadata M) : ∃ x, Json.toMap (md.toDoc showMac) = .ok x := by
  unfold Metadata.toDoc
  refine Json.toMap_append (Json.toMap_append (Json.toMap_append (Json.toMap_append (unitsField_read _ _) (unitsField_read _ _)) ?_) ?_) ?_
  · exact ⟨_, rfl⟩
  · rcases md.partialEncryption with _ | p
    · exact ⟨_, rfl⟩
    · cases p <;> exact ⟨_, rfl⟩
  · rcases md.macOnlyEncrypted with _ | p <;> exact ⟨_, rfl⟩

/-- The document of an encrypted file is one that rops represents. -/
theorem toDoc_read {x : Fmt} {C : Cipher} {rx : RegexMatch} {res : Resolved} {f : EncFile x.doc.F} {y : RMap EncLeaf}
    (h : x.doc.F.encToInternal C rx res f.map = .ok y) :
    ∃ m, x.doc.F.toInternal (x.doc.order (f.toDoc x.doc C)) = .ok m := by
  obtain ⟨z, hz⟩ := Metadata.toDoc_read (fun e => e.toText C) f.metadata
  cases x with
  | json =>
    refine Json.toMap_append (a := f.map) ((Json.to_of_enc C rx).2.2 f.map _ _ h) ⟨[(sopsKey, .map z)], ?_⟩
    simp only [Json.toMap, Json.toTree, hz]
  | yaml =>
    refine Yaml.toMap_append (a := f.map) ((Yaml.to_of_enc C rx).2.2 f.map _ _ h) ⟨[(sopsKey, .map z)], ?_⟩
    simp only [Yaml.toMap, Yaml.validateKey, Yaml.toTree, Yaml.to_ofScalar.2.2 _ _ hz]
  | toml => exact Toml.to_total.2.2 _

end Rops
