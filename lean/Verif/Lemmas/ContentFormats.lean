import Verif.Spec.ContentFormats
import Verif.Spec.Format
import Verif.Lemmas.Content
import Verif.Lemmas.Format
/-! Equality of documents in each format is equality of content. -/

namespace Rops
open Spec

theorem floatEq_iff (a b : Str) : floatEq a b = true ↔
    a = b ∨ (a = c!"0" ∨ a = c!"-0") ∧ (b = c!"0" ∨ b = c!"-0") := by
  simp [floatEq]

theorem Number.eq_iff (a b : Number) : Number.eq a b = true ↔ SameNumber a b := by
  unfold SameNumber
  cases a <;> cases b <;> simp [Number.eq, floatEq_iff]

theorem JsonScalar.eq_iff (a b : JsonScalar) : JsonScalar.eq a b = true ↔ SameScalar a b := by
  cases a <;> cases b <;> simp [JsonScalar.eq, SameScalar, Number.eq_iff]

theorem eqMap_iff {α : Type} {f : α → α → Bool} {same : α → α → Prop} (hf : ∀ a b, f a b = true ↔ same a b)
    {a b : RMap α} (ha : DistinctKeys (.map a)) (hb : DistinctKeys (.map b)) :
    Tree.eqMap f a b = true ↔ SameContent same (.map a) (.map b) :=
  (eqBy_iff_sameContent hf).1 (.map a) (.map b) ha hb

/-! ## TOML -/

/-- Equality of TOML scalars. -/
def tomlScalarEq : Toml → Toml → Bool
  | .str a, .str b => a == b
  | .int a, .int b => a == b
  | .float a, .float b => a != c!"NaN" && floatEq a b
  | .bool a, .bool b => a == b
  | .datetime a, .datetime b => a == b
  | _, _ => false

theorem tomlScalarEq_iff (a b : Toml) : tomlScalarEq a b = true ↔ SameToml a b := by
  cases a <;> cases b <;> simp only [tomlScalarEq, SameToml, beq_iff_eq, Bool.false_eq_true, Bool.and_eq_true, bne_iff_ne,
    floatEq_iff]
  rename_i a b
  constructor
  · rintro ⟨h1, h2 | h2⟩
    · exact .inl ⟨h2, h1⟩
    · exact .inr h2
  · rintro (⟨h1, h2⟩ | h)
    · exact ⟨h2, .inl h1⟩
    · refine ⟨?_, .inr h⟩
      rintro rfl
      revert h
      simp

theorem get_tomlContentMap (m : List (Str × Toml)) (k : Str) :
    IndexMap.get (tomlContentMap m) k = (IndexMap.get m k).map tomlContent := by
  induction m with
  | nil => rfl
  | cons x r ih =>
    obtain ⟨k', t⟩ := x
    simp only [tomlContentMap, IndexMap.get, ih]
    by_cases h : k' = k <;> simp [h]

theorem tomlContentMap_length (m : List (Str × Toml)) : (tomlContentMap m).length = m.length := by
  induction m with
  | nil => rfl
  | cons x r ih => simp [tomlContentMap, ih]

theorem Toml.eq_eqBy :
    (∀ a b : Toml, Toml.eq a b = Tree.eqBy tomlScalarEq (tomlContent a) (tomlContent b)) ∧
    (∀ a b : List Toml, Toml.eqSeq a b = Tree.eqSeq tomlScalarEq (tomlContentSeq a) (tomlContentSeq b)) ∧
    (∀ a b : List (Str × Toml), Toml.subMap a b = Tree.subMap tomlScalarEq (tomlContentMap a) (tomlContentMap b)) := by
  apply Toml.induct
  · intro s b; cases b <;> simp [Toml.eq, tomlContent, Tree.eqBy, tomlScalarEq]
  · intro s b; cases b <;> simp [Toml.eq, tomlContent, Tree.eqBy, tomlScalarEq]
  · intro s b; cases b <;> simp [Toml.eq, tomlContent, Tree.eqBy, tomlScalarEq]
  · intro s b; cases b <;> simp [Toml.eq, tomlContent, Tree.eqBy, tomlScalarEq]
  · intro s b; cases b <;> simp [Toml.eq, tomlContent, Tree.eqBy, tomlScalarEq]
  · intro l ih b; cases b <;> simp [Toml.eq, tomlContent, Tree.eqBy, ih]
  · intro m ih b; cases b <;> simp [Toml.eq, tomlContent, Tree.eqBy, ih, tomlContentMap_length]
  · intro b; cases b <;> simp [Toml.eqSeq, tomlContentSeq, Tree.eqSeq]
  · intro t r iht ihr b; cases b <;> simp [Toml.eqSeq, tomlContentSeq, Tree.eqSeq, iht, ihr]
  · intro b; simp [Toml.subMap, tomlContentMap, Tree.subMap]
  · intro k t r iht ihr b
    simp only [Toml.subMap, tomlContentMap, Tree.subMap, ihr, get_tomlContentMap]
    cases IndexMap.get b k <;> simp [iht]

/-! ## YAML -/

/-- Equality of YAML scalars. -/
def yamlScalarEq : YamlScalar → YamlScalar → Bool
  | .scalar a, .scalar b => JsonScalar.eq a b
  | .tag s, .tag t => s == t
  | _, _ => false

theorem yamlScalarEq_iff (a b : YamlScalar) : yamlScalarEq a b = true ↔ SameYaml a b := by
  cases a <;> cases b <;> simp [yamlScalarEq, SameYaml, JsonScalar.eq_iff]

theorem Spec.YamlMapIs.length {m m'} (h : YamlMapIs m m') : m.length = m'.length := by
  induction m generalizing m' with
  | nil => cases h; rfl
  | cons x r ih => cases h with | cons k h1 h2 => simp [ih h2]

theorem Spec.YamlMapIs.has {a : Yaml} {a' : Tree YamlScalar} 
    (ih : ∀ b b', YamlIs b b' → DistinctKeys b' → Yaml.eq a b = Tree.eqBy yamlScalarEq a' b')
    (k : Str) {m m'} (h : YamlMapIs m m') (hn : (m'.map Prod.fst).Nodup)
    (hd : DistinctKeysMap m') :
    Yaml.has (.str k) a m = (match IndexMap.get m' k with | some b => Tree.eqBy yamlScalarEq a' b | none => false) := by
  induction m generalizing m' with
  | nil => cases h; simp [Yaml.has, IndexMap.get]
  | cons x r ihr =>
    cases h with
    | cons k' h1 h2 =>
      rename_i t t' r'
      simp only [List.map_cons, List.nodup_cons] at hn
      simp only [Yaml.has, Yaml.eq, IndexMap.get, ihr h2 hn.2 hd.2]
      by_cases hk : k = k'
      · subst hk
        have : IndexMap.get r' k = none := by rw [get_eq_entry]; exact entry_eq_none.2 hn.1
        simp [this, ih _ _ h1 hd.1]
      · have hk' : ¬ k' = k := fun e => hk e.symm
        simp [hk, hk']

/-- A value is not a tag. -/
theorem Spec.YamlIs.ne_tag {a : Yaml} {a' : Tree YamlScalar} (h : YamlIs a a') (s : Str) :
    Tree.eqBy yamlScalarEq a' (.leaf (.tag s)) = false ∧ Tree.eqBy yamlScalarEq (.leaf (.tag s)) a' = false := by
  cases h <;> simp [Tree.eqBy, yamlScalarEq]

theorem Yaml.eq_eqBy :
    (∀ a : Yaml, ∀ a' b b', YamlIs a a' → YamlIs b b' → DistinctKeys b' → Yaml.eq a b = Tree.eqBy yamlScalarEq a' b') ∧
    (∀ a : List Yaml, ∀ a' b b', YamlSeqIs a a' → YamlSeqIs b b' → DistinctKeysSeq b' →
      Yaml.eqSeq a b = Tree.eqSeq yamlScalarEq a' b') ∧
    (∀ a : List (Yaml × Yaml), ∀ a' b b', YamlMapIs a a' → YamlMapIs b b' → DistinctKeys (.map b') →
      Yaml.subMap a b = Tree.subMap yamlScalarEq a' b') := by
  apply Yaml.induct
  · intro a' b b' ha hb _
    cases ha
    cases hb <;> simp [Yaml.eq, Tree.eqBy]
  · intro x a' b b' ha hb _
    cases ha
    cases hb <;> simp [Yaml.eq, Tree.eqBy, yamlScalarEq, JsonScalar.eq] <;> exact Bool.eq_iff_iff.2 (by simp)
  · intro x a' b b' ha hb _
    cases ha
    cases hb <;> simp [Yaml.eq, Tree.eqBy, yamlScalarEq, JsonScalar.eq] <;> exact Bool.eq_iff_iff.2 (by simp)
  · intro x a' b b' ha hb _
    cases ha
    cases hb <;> simp [Yaml.eq, Tree.eqBy, yamlScalarEq, JsonScalar.eq] <;> exact Bool.eq_iff_iff.2 (by simp)
  · intro l ih a' b b' ha hb hd
    cases ha with
    | seq ha =>
      cases hb with
      | seq hb => simp only [Yaml.eq, Tree.eqBy]; exact ih _ _ _ ha hb hd
      | tagged s hb =>
        simp only [Yaml.eq, Tree.eqBy]
        cases ha with
        | nil => simp [Tree.eqSeq]
        | cons h1 h2 => simp [Tree.eqSeq, (h1.ne_tag s).1]
      | _ => simp [Yaml.eq, Tree.eqBy]
  · intro m ih a' b b' ha hb hd
    cases ha with
    | map ha =>
      cases hb with
      | map hb => simp only [Yaml.eq, Tree.eqBy, ha.length, hb.length, ih _ _ _ ha hb hd]
      | _ => simp [Yaml.eq, Tree.eqBy]
  · intro t v ih a' b b' ha hb hd
    cases ha with
    | tagged s ha =>
      cases hb with
      | tagged s' hb =>
        simp only [DistinctKeys, DistinctKeysSeq, true_and, and_true] at hd
        simp only [Yaml.eq, Tree.eqBy, Tree.eqSeq, yamlScalarEq, ih _ _ _ ha hb hd, Bool.and_true]
      | seq hb =>
        simp only [Yaml.eq, Tree.eqBy]
        cases hb with
        | nil => simp [Tree.eqSeq]
        | cons h1 h2 => simp [Tree.eqSeq, (h1.ne_tag t).2]
      | _ => simp [Yaml.eq, Tree.eqBy]
  · intro a' b b' ha hb _
    cases ha
    cases hb <;> simp [Yaml.eqSeq, Tree.eqSeq]
  · intro t r iht ihr a' b b' ha hb hd
    cases ha with
    | cons h1 h2 =>
      cases hb with
      | nil => simp [Yaml.eqSeq, Tree.eqSeq]
      | cons h3 h4 => simp only [Yaml.eqSeq, Tree.eqSeq, iht _ _ _ h1 h3 hd.1, ihr _ _ _ h2 h4 hd.2]
  · intro a' b b' ha hb _
    cases ha
    simp [Yaml.subMap, Tree.subMap]
  · intro k t r _ iht ihr a' b b' ha hb hd
    cases ha with
    | cons k h1 h2 =>
      simp only [Yaml.subMap, Tree.subMap, ihr _ _ _ h2 hb hd,
        hb.has (fun b b' hb hd => iht _ b b' h1 hb hd) k hd.1 hd.2]
      cases IndexMap.get b' k <;> rfl

theorem toTree_untag : (∀ t : Yaml, Yaml.toTree (untag t) = Yaml.toTree t) ∧
    (∀ l : List Yaml, Yaml.toSeq (untagSeq l) = Yaml.toSeq l) ∧
    (∀ m : List (Yaml × Yaml), Yaml.toMap (untagMap m) = Yaml.toMap m) := by
  apply Yaml.induct
  · rfl
  · intro; rfl
  · intro; rfl
  · intro; rfl
  · intro l h; simp only [untag, Yaml.toTree, h]
  · intro m h; simp only [untag, Yaml.toTree, h]
  · intro s v h; simp only [untag, Yaml.toTree, h]
  · rfl
  · intro t r h1 h2; simp only [untagSeq, Yaml.toSeq, h1, h2]
  · rfl
  · intro k t r _ h1 h2; simp only [untagMap, Yaml.toMap, h1, h2]

/-- Untagged values have no tag at any place. -/
theorem nodeAt_untagged : (∀ t : Yaml, ∀ t', YamlIs t t' → Untagged t → ∀ p s, nodeAt p t' ≠ some (.leaf (.tag s))) ∧
    (∀ l : List Yaml, ∀ l', YamlSeqIs l l' → UntaggedSeq l → ∀ p s, nodeAt p (.seq l') ≠ some (.leaf (.tag s))) ∧
    (∀ m : List (Yaml × Yaml), ∀ m', YamlMapIs m m' → UntaggedMap m → ∀ p s, nodeAt p (.map m') ≠ some (.leaf (.tag s))) := by
  apply Yaml.induct
  · intro t' h _ p s; cases h; cases p <;> simp [nodeAt]
  · intro b t' h _ p s; cases h; cases p <;> simp [nodeAt]
  · intro b t' h _ p s; cases h; cases p <;> simp [nodeAt]
  · intro b t' h _ p s; cases h; cases p <;> simp [nodeAt]
  · intro l ih t' h hu; cases h with | seq h => exact ih _ h hu
  · intro m ih t' h hu; cases h with | map h => exact ih _ h hu
  · intro _ _ _ _ _ hu; cases hu
  · intro l' h _ p s
    cases h
    match p with
    | [] => simp [nodeAt]
    | .key k :: r => simp [nodeAt]
    | .pos n :: r => simp [nodeAt]
  · intro t r iht ihr l' h hu p s
    cases h with
    | cons h1 h2 =>
      match p with
      | [] => simp [nodeAt]
      | .key k :: r => simp [nodeAt]
      | .pos 0 :: r => simpa [nodeAt] using iht _ h1 hu.1 r s
      | .pos (n + 1) :: r => simpa [nodeAt] using ihr _ h2 hu.2 (.pos n :: r) s
  · intro l' h _ p s
    cases h
    match p with
    | [] => simp [nodeAt]
    | .key k :: r => simp [nodeAt, entry]
    | .pos n :: r => simp [nodeAt]
  · intro k t r _ iht ihr l' h hu p s
    cases h with
    | cons k h1 h2 =>
      match p with
      | [] => simp [nodeAt]
      | .pos n :: r => simp [nodeAt]
      | .key k' :: r =>
        by_cases hk : k = k'
        · subst hk; simpa [nodeAt, entry] using iht _ h1 hu.2.1 r s
        · have := ihr _ h2 hu.2.2 (.key k' :: r) s
          simpa [nodeAt, entry, hk] using this

/-- Other values have one at some place. -/
theorem nodeAt_tagged : (∀ t : Yaml, ∀ t', YamlIs t t' → DistinctKeys t' → ¬ Untagged t → ∃ p s, nodeAt p t' = some (.leaf (.tag s))) ∧
    (∀ l : List Yaml, ∀ l', YamlSeqIs l l' → DistinctKeysSeq l' → ¬ UntaggedSeq l →
      ∃ n p s, nodeAt (.pos n :: p) (.seq l') = some (.leaf (.tag s))) ∧
    (∀ m : List (Yaml × Yaml), ∀ m', YamlMapIs m m' → DistinctKeys (.map m') → ¬ UntaggedMap m →
      ∃ k p s, nodeAt (.key k :: p) (.map m') = some (.leaf (.tag s))) := by
  apply Yaml.induct
  · intro _ _ _ h; exact absurd trivial h
  · intro _ _ _ _ h; exact absurd trivial h
  · intro _ _ _ _ h; exact absurd trivial h
  · intro _ _ _ _ h; exact absurd trivial h
  · intro l ih t' h hd hu
    cases h with
    | seq h => obtain ⟨n, p, s, h⟩ := ih _ h hd hu; exact ⟨_, s, h⟩
  · intro m ih t' h hd hu
    cases h with
    | map h => obtain ⟨n, p, s, h⟩ := ih _ h hd hu; exact ⟨_, s, h⟩
  · intro s v _ t' h _ _
    cases h with
    | tagged s h => exact ⟨[.pos 0], s, rfl⟩
  · intro _ _ _ h; exact absurd trivial h
  · intro t r iht ihr l' h hd hu
    cases h with
    | cons h1 h2 =>
      by_cases ht : Untagged t
      · obtain ⟨n, p, s, h⟩ := ihr _ h2 hd.2 fun hr => hu ⟨ht, hr⟩
        exact ⟨n + 1, p, s, by simpa [nodeAt] using h⟩
      · obtain ⟨p, s, h⟩ := iht _ h1 hd.1 ht
        exact ⟨0, p, s, by simpa [nodeAt] using h⟩
  · intro _ _ _ h; exact absurd trivial h
  · intro k t r _ iht ihr l' h hd hu
    cases h with
    | cons k h1 h2 =>
      rename_i t' r'
      obtain ⟨hn, hd1, hd2⟩ := hd
      simp only [List.map_cons, List.nodup_cons] at hn
      by_cases ht : Untagged t
      · obtain ⟨k', p, s, h⟩ := ihr _ h2 ⟨hn.2, hd2⟩ fun hr => hu ⟨trivial, ht, hr⟩
        have hk : ¬ k = k' := by
          rintro rfl
          simp only [nodeAt, entry_eq_none.2 hn.1] at h
          cases h
        refine ⟨k', p, s, ?_⟩
        simp only [nodeAt, entry, List.find?_cons, hk, decide_false] at h ⊢
        exact h
      · obtain ⟨p, s, h⟩ := iht _ h1 hd1 ht
        exact ⟨k, p, s, by simpa [nodeAt, entry] using h⟩

end Rops
