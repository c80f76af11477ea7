import Verif.Spec.TomlFiles
import Verif.Lemmas.JsonFiles
import Verif.Lemmas.TomlRound
import Verif.Lemmas.TomlRead
import Verif.Lemmas.TomlFloats
import Verif.Lemmas.DocFormats
/-!
# Encrypted TOML files are read from their texts
-/

namespace Rops
open Spec

/-! ## Documents that are read -/

/-- The value may have been read: if it is a float then from a text, and if it is a text then not the
one for null. -/
def ValueRead (S : TomlScalars) : Value → Prop
  | .float f => ∃ t, tomlReadFloat S t = some f
  | .string s => s ≠ c!"null"
  | _ => True

theorem Toml.to_facts :
    (∀ t : Toml, ∀ z, Toml.toTree t = .ok z → Toml.ofTree Toml.ofValue z = tomlUndated t ∧ nesting z = tomlLevels t ∧
      shape z = shape (tomlDoc t)) ∧
    (∀ l : List Toml, ∀ z, Toml.toSeq l = .ok z → Toml.ofSeq Toml.ofValue z = tomlUndatedSeq l ∧ nestingSeq z = tomlLevelsSeq l ∧
      shapeSeq z = shapeSeq (tomlSeq l)) ∧
    (∀ m : List (Str × Toml), ∀ z, Toml.toMap m = .ok z → Toml.ofMap Toml.ofValue z = tomlUndatedMap m ∧ nestingMap z = tomlLevelsMap m ∧
      shapeMap z = shapeMap (tomlMap m) ∧ z.map Prod.fst = m.map Prod.fst) := by
  apply Toml.induct
  · intro s z h
    simp only [Toml.toTree] at h
    split at h
    · rename_i hs
      cases h
      subst hs
      refine ⟨?_, ?_, ?_⟩
      · simp only [Toml.ofTree, tomlUndated]
      · simp only [nesting, tomlLevels]
      · rw [tomlDoc, if_pos (by rfl)]; simp only [shape]
    · rename_i hs
      cases h
      refine ⟨?_, ?_, ?_⟩
      · simp only [Toml.ofTree, tomlUndated, Toml.ofValue]
      · simp only [nesting, tomlLevels]
      · rw [tomlDoc, if_neg (show ¬s = c!"null" from hs)]; simp only [shape]
  · intro n z h; simp only [Toml.toTree, Except.ok.injEq] at h; subst h
    exact ⟨by simp only [Toml.ofTree, tomlUndated, Toml.ofValue], by simp only [nesting, tomlLevels], by simp only [tomlDoc, shape]⟩
  · intro n z h; simp only [Toml.toTree, Except.ok.injEq] at h; subst h
    exact ⟨by simp only [Toml.ofTree, tomlUndated, Toml.ofValue], by simp only [nesting, tomlLevels], by simp only [tomlDoc, shape]⟩
  · intro n z h; simp only [Toml.toTree, Except.ok.injEq] at h; subst h
    exact ⟨by simp only [Toml.ofTree, tomlUndated, Toml.ofValue], by simp only [nesting, tomlLevels], by simp only [tomlDoc, shape]⟩
  · intro n z h; simp only [Toml.toTree, Except.ok.injEq] at h; subst h
    exact ⟨by simp only [Toml.ofTree, tomlUndated, Toml.ofValue], by simp only [nesting, tomlLevels], by simp only [tomlDoc, shape]⟩
  · intro l ih z h
    simp only [Toml.toTree] at h
    split at h
    · rename_i l' hl
      cases h
      obtain ⟨a, b, c⟩ := ih _ hl
      exact ⟨by simp only [Toml.ofTree, tomlUndated, a], by simp only [nesting, tomlLevels, b], by simp only [tomlDoc, shape, c]⟩
    · cases h
  · intro l ih z h
    simp only [Toml.toTree] at h
    split at h
    · rename_i l' hl
      cases h
      obtain ⟨a, b, c, _⟩ := ih _ hl
      exact ⟨by simp only [Toml.ofTree, tomlUndated, a], by simp only [nesting, tomlLevels, b], by simp only [tomlDoc, shape, c]⟩
    · cases h
  · intro z h; simp only [Toml.toSeq, Except.ok.injEq] at h; subst h
    exact ⟨by simp only [Toml.ofSeq, tomlUndatedSeq], by simp only [nestingSeq, tomlLevelsSeq], by simp only [tomlSeq, shapeSeq]⟩
  · intro t r h1 h2 z h
    simp only [Toml.toSeq] at h
    split at h
    · rename_i t' ht
      split at h
      · rename_i r' hr
        cases h
        obtain ⟨a, b, c⟩ := h1 _ ht
        obtain ⟨a', b', c'⟩ := h2 _ hr
        exact ⟨by simp only [Toml.ofSeq, tomlUndatedSeq, a, a'], by simp only [nestingSeq, tomlLevelsSeq, b, b'],
          by simp only [tomlSeq, shapeSeq, c, c']⟩
      · cases h
    · cases h
  · intro z h; simp only [Toml.toMap, Except.ok.injEq] at h; subst h
    exact ⟨by simp only [Toml.ofMap, tomlUndatedMap], by simp only [nestingMap, tomlLevelsMap], by simp only [tomlMap, shapeMap], rfl⟩
  · intro k t r h1 h2 z h
    simp only [Toml.toMap] at h
    split at h
    · rename_i t' ht
      split at h
      · rename_i r' hr
        cases h
        obtain ⟨a, b, c⟩ := h1 _ ht
        obtain ⟨a', b', c', d'⟩ := h2 _ hr
        exact ⟨by simp only [Toml.ofMap, tomlUndatedMap, a, a'], by simp only [nestingMap, tomlLevelsMap, b, b'],
          by simp only [tomlMap, shapeMap, c, c'], by simp only [List.map_cons, d']⟩
      · cases h
    · cases h

theorem Toml.to_read {S : TomlScalars} (hd : ∀ t x, S.date t = some x → x ≠ c!"null") :
    (∀ t : Toml, ∀ z, Toml.toTree t = .ok z → TomlRead S t → DistinctKeys z ∧ ∀ p, ∀ pv ∈ leavesAt p z, ValueRead S pv.2) ∧
    (∀ l : List Toml, ∀ z, Toml.toSeq l = .ok z → (∀ t ∈ l, TomlRead S t) →
      DistinctKeysSeq z ∧ ∀ p, ∀ pv ∈ leavesSeq p z, ValueRead S pv.2) ∧
    (∀ m : List (Str × Toml), ∀ z, Toml.toMap m = .ok z → (∀ e ∈ m, TomlRead S e.2) →
      DistinctKeysMap z ∧ ∀ p, ∀ pv ∈ leavesMap p z, ValueRead S pv.2) := by
  have leaf : ∀ {v : Value}, ValueRead S v → ∀ p, ∀ pv ∈ leavesAt p (.leaf v), ValueRead S pv.2 := fun hv p pv h => by
    simp only [leavesAt, List.mem_singleton] at h; subst h; exact hv
  apply Toml.induct
  · intro s z h _
    simp only [Toml.toTree] at h
    split at h
    · cases h
      exact ⟨by simp only [DistinctKeys], fun p pv h => by simp only [leavesAt] at h; cases h⟩
    · rename_i hs
      cases h
      exact ⟨by simp only [DistinctKeys], leaf hs⟩
  · intro n z h _; simp only [Toml.toTree, Except.ok.injEq] at h; subst h
    exact ⟨by simp only [DistinctKeys], leaf trivial⟩
  · intro n z h hr; simp only [Toml.toTree, Except.ok.injEq] at h; subst h
    refine ⟨by simp only [DistinctKeys], leaf ?_⟩
    cases hr with
    | float h => exact ⟨_, h⟩
  · intro n z h _; simp only [Toml.toTree, Except.ok.injEq] at h; subst h
    exact ⟨by simp only [DistinctKeys], leaf trivial⟩
  · intro n z h hr; simp only [Toml.toTree, Except.ok.injEq] at h; subst h
    refine ⟨by simp only [DistinctKeys], leaf ?_⟩
    cases hr with
    | datetime h => exact hd _ _ h
  · intro l ih z h hr
    simp only [Toml.toTree] at h
    split at h
    · rename_i l' hl
      cases h
      cases hr with
      | array hr =>
      obtain ⟨a, b⟩ := ih _ hl hr
      exact ⟨by simp only [DistinctKeys, a], fun p pv hp => by simp only [leavesAt] at hp; exact b p pv hp⟩
    · cases h
  · intro l ih z h hr
    simp only [Toml.toTree] at h
    split at h
    · rename_i l' hl
      cases h
      cases hr with
      | table hn hr =>
      obtain ⟨a, b⟩ := ih _ hl hr
      refine ⟨?_, fun p pv hp => by simp only [leavesAt] at hp; exact b p pv hp⟩
      rw [DistinctKeys, (Toml.to_facts.2.2 _ _ hl).2.2.2]
      exact ⟨hn, a⟩
    · cases h
  · intro z h _; simp only [Toml.toSeq, Except.ok.injEq] at h; subst h
    exact ⟨by simp only [DistinctKeysSeq], fun p pv hp => by simp only [leavesSeq] at hp; cases hp⟩
  · intro t r h1 h2 z h hr
    simp only [Toml.toSeq] at h
    split at h
    · rename_i t' ht
      split at h
      · rename_i r' hr'
        cases h
        obtain ⟨a, b⟩ := h1 _ ht (hr _ (.head _))
        obtain ⟨a', b'⟩ := h2 _ hr' fun t ht => hr t (.tail _ ht)
        refine ⟨by rw [DistinctKeysSeq]; exact ⟨a, a'⟩, fun p pv hp => ?_⟩
        simp only [leavesSeq, List.mem_append] at hp
        exact hp.elim (b _ pv) (b' p pv)
      · cases h
    · cases h
  · intro z h _; simp only [Toml.toMap, Except.ok.injEq] at h; subst h
    exact ⟨by simp only [DistinctKeysMap], fun p pv hp => by simp only [leavesMap] at hp; cases hp⟩
  · intro k t r h1 h2 z h hr
    simp only [Toml.toMap] at h
    split at h
    · rename_i t' ht
      split at h
      · rename_i r' hr'
        cases h
        obtain ⟨a, b⟩ := h1 _ ht (hr (k, t) (.head _))
        obtain ⟨a', b'⟩ := h2 _ hr' fun t ht => hr t (.tail _ ht)
        refine ⟨by rw [DistinctKeysMap]; exact ⟨a, a'⟩, fun p pv hp => ?_⟩
        simp only [leavesMap, List.mem_append] at hp
        exact hp.elim (b _ pv) (b' p pv)
      · cases h
    · cases h

theorem leaf_anywhere {α : Type} {t : Tree α} {p : List Str} {pv : List Str × α} (h : pv ∈ leavesAt p t) (q : List Str) :
    ∃ r, (r, pv.2) ∈ leavesAt q t := by
  have := List.mem_map_of_mem (f := Prod.snd) h
  rw [leavesAt_snd.1 t p q] at this
  obtain ⟨⟨r, v⟩, hr, hv⟩ := List.mem_map.1 this
  exact ⟨r, by simp only at hv; rw [← hv]; exact hr⟩

theorem leaf_anywhere_map {α : Type} {m : RMap α} {p : List Str} {pv : List Str × α} (h : pv ∈ leavesMap p m) (q : List Str) :
    ∃ r, (r, pv.2) ∈ leavesMap q m := by
  have := leaf_anywhere (t := .map m) (p := p) (pv := pv) (by rw [leavesAt]; exact h) q
  rwa [leavesAt] at this

/-- The paths of the leaves are those of the shape. -/
theorem shape_paths {α : Type} :
    (∀ t : Tree α, ∀ p, (leavesAt p (shape t)).map Prod.fst = (leavesAt p t).map Prod.fst) ∧
    (∀ l : List (Tree α), ∀ p, (leavesSeq p (shapeSeq l)).map Prod.fst = (leavesSeq p l).map Prod.fst) ∧
    (∀ m : RMap α, ∀ p, (leavesMap p (shapeMap m)).map Prod.fst = (leavesMap p m).map Prod.fst) := by
  apply Tree.induct
  · intro l ih p; simp only [shape, leavesAt, ih]
  · intro m ih p; simp only [shape, leavesAt, ih]
  · intro p; simp only [shape, leavesAt, List.map_nil]
  · intro a p; simp only [shape, leavesAt, List.map_cons, List.map_nil]
  · intro p; simp only [shapeSeq, leavesSeq, List.map_nil]
  · intro t r h1 h2 p; simp only [shapeSeq, leavesSeq, List.map_append, h1, h2]
  · intro p; simp only [shapeMap, leavesMap, List.map_nil]
  · intro k t r h1 h2 p; simp only [shapeMap, leavesMap, List.map_append, h1, h2]

theorem leaf_of_shape {α β : Type} {m : RMap α} {m' : RMap β} (h : shapeMap m = shapeMap m') {pv : List Str × α} (hp : pv ∈ leaves m) :
    ∃ v, (pv.1, v) ∈ leaves m' := by
  have := List.mem_map_of_mem (f := Prod.fst) hp
  unfold leaves at this
  rw [← shape_paths.2.2 m [], h, shape_paths.2.2 m' []] at this
  obtain ⟨⟨r, v⟩, hr, hv⟩ := List.mem_map.1 this
  exact ⟨v, by simp only at hv; rw [← hv]; exact hr⟩

/-! ## Documents that are written -/

theorem ofMap_keys {α : Type} (f : α → Toml) (m : RMap α) : (Toml.ofMap f m).map Prod.fst = m.map Prod.fst := by
  induction m with
  | nil => simp [Toml.ofMap]
  | cons e r ih => obtain ⟨k, t⟩ := e; simp [Toml.ofMap, ih]

/-- A tree with distinct keys and sound scalars is written soundly. -/
theorem sound_ofTree {S : TomlScalars} {α : Type} {f : α → Toml} :
    (∀ t : Tree α, DistinctKeys t → (∀ p, ∀ pv ∈ leavesAt p t, TomlSound S (f pv.2)) → TomlSound S (Toml.ofTree f t)) ∧
    (∀ l : List (Tree α), DistinctKeysSeq l → (∀ p, ∀ pv ∈ leavesSeq p l, TomlSound S (f pv.2)) → TomlSoundSeq S (Toml.ofSeq f l)) ∧
    (∀ m : RMap α, DistinctKeysMap m → (∀ p, ∀ pv ∈ leavesMap p m, TomlSound S (f pv.2)) → TomlSoundMap S (Toml.ofMap f m)) := by
  apply Tree.induct
  · intro l ih hd h
    rw [Toml.ofTree, TomlSound]
    exact ih (by rw [DistinctKeys] at hd; exact hd) fun p pv hp => h p pv (by rw [leavesAt]; exact hp)
  · intro m ih hd h
    rw [DistinctKeys] at hd
    rw [Toml.ofTree, TomlSound, ofMap_keys]
    exact ⟨hd.1, ih hd.2 fun p pv hp => h p pv (by rw [leavesAt]; exact hp)⟩
  · intro _ _
    rw [Toml.ofTree, TomlSound] <;> (first | exact trivial | (intros; contradiction))
  · intro a _ h
    rw [Toml.ofTree]
    exact h [] ([], a) (by rw [leavesAt]; exact .head _)
  · intro _ _; rw [Toml.ofSeq, TomlSoundSeq]; trivial
  · intro t r h1 h2 hd h
    rw [DistinctKeysSeq] at hd
    rw [Toml.ofSeq, TomlSoundSeq]
    exact ⟨h1 hd.1 fun p pv hp => h p pv (by rw [leavesSeq]; exact List.mem_append_left _ hp),
      h2 hd.2 fun p pv hp => h p pv (by rw [leavesSeq]; exact List.mem_append_right _ hp)⟩
  · intro _ _; rw [Toml.ofMap, TomlSoundMap]; trivial
  · intro k t r h1 h2 hd h
    rw [DistinctKeysMap] at hd
    rw [Toml.ofMap, TomlSoundMap]
    refine ⟨h1 hd.1 fun p pv hp => ?_,
      h2 hd.2 fun p pv hp => h p pv (by rw [leavesMap]; exact List.mem_append_right _ hp)⟩
    obtain ⟨q, hq⟩ := leaf_anywhere hp ([] ++ [k])
    exact h [] (q, pv.2) (by rw [leavesMap]; exact List.mem_append_left _ hq)

theorem levels_ofTree {α : Type} {f : α → Toml} (hf : ∀ a, tomlLevels (f a) = 0) :
    (∀ t : Tree α, tomlLevels (Toml.ofTree f t) = nesting t) ∧
    (∀ l : List (Tree α), tomlLevelsSeq (Toml.ofSeq f l) = nestingSeq l) ∧
    (∀ m : RMap α, tomlLevelsMap (Toml.ofMap f m) = nestingMap m) := by
  apply Tree.induct
  · intro l ih; simp only [Toml.ofTree, tomlLevels, nesting, ih]
  · intro m ih; simp only [Toml.ofTree, tomlLevels, nesting, ih]
  · simp only [Toml.ofTree, tomlLevels, nesting]
  · intro a; simp only [Toml.ofTree, nesting, hf]
  · simp only [Toml.ofSeq, tomlLevelsSeq, nestingSeq]
  · intro t r h1 h2; simp only [Toml.ofSeq, tomlLevelsSeq, nestingSeq, h1, h2]
  · simp only [Toml.ofMap, tomlLevelsMap, nestingMap]
  · intro k t r h1 h2; simp only [Toml.ofMap, tomlLevelsMap, nestingMap, h1, h2]

theorem ofValue_levels (v : Value) : tomlLevels (Toml.ofValue v) = 0 := by cases v <;> simp only [Toml.ofValue, tomlLevels]

theorem ofEncLeaf_levels (C : Cipher) (e : EncLeaf) : tomlLevels (Toml.ofEncLeaf C e) = 0 := by
  cases e with
  | encrypted e => simp only [Toml.ofEncLeaf, tomlLevels]
  | escaped v => exact ofValue_levels v

theorem ofScalar_levels (s : JsonScalar) : tomlLevels (Toml.ofScalar s) = 0 := by
  match s with
  | .bool _ => simp only [Toml.ofScalar, tomlLevels]
  | .str _ => simp only [Toml.ofScalar, tomlLevels]
  | .num (.posInt _) => simp only [Toml.ofScalar, tomlLevels]
  | .num (.negInt _) => simp only [Toml.ofScalar, tomlLevels]
  | .num (.float _) => simp only [Toml.ofScalar, tomlLevels]

theorem tomlLevelsMap_append (a b : List (Str × Toml)) : tomlLevelsMap (a ++ b) = max (tomlLevelsMap a) (tomlLevelsMap b) := by
  induction a with
  | nil => simp [tomlLevelsMap]
  | cons e r ih => obtain ⟨k, t⟩ := e; simp only [List.cons_append, tomlLevelsMap, ih]; omega

theorem soundMap_append {S : TomlScalars} {a b : List (Str × Toml)} (ha : TomlSoundMap S a) (hb : TomlSoundMap S b) :
    TomlSoundMap S (a ++ b) := by
  induction a with
  | nil => exact hb
  | cons e r ih =>
    obtain ⟨k, t⟩ := e
    rw [TomlSoundMap] at ha
    rw [List.cons_append, TomlSoundMap]
    exact ⟨ha.1, ih ha.2⟩

/-! ## Metadata -/

theorem distinctKeysMap_of {α : Type} {m : RMap α} (h : ∀ e ∈ m, DistinctKeys e.2) : DistinctKeysMap m := by
  induction m with
  | nil => rw [DistinctKeysMap]; trivial
  | cons e r ih =>
    obtain ⟨k, t⟩ := e
    rw [DistinctKeysMap]
    exact ⟨h (k, t) (.head _), ih fun e he => h e (.tail _ he)⟩

theorem distinctKeysSeq_of {α : Type} {l : List (Tree α)} (h : ∀ t ∈ l, DistinctKeys t) : DistinctKeysSeq l := by
  induction l with
  | nil => rw [DistinctKeysSeq]; trivial
  | cons t r ih =>
    rw [DistinctKeysSeq]
    exact ⟨h t (.head _), ih fun e he => h e (.tail _ he)⟩

theorem unit_distinct {k : Kind} (u : IUnit k) : DistinctKeys (.map u.toDoc : Json) := by
  rw [DistinctKeys]
  refine ⟨?_, distinctKeysMap_of fun e he => ?_⟩
  · unfold IUnit.toDoc
    cases k <;> cases u.createdAt <;> simp only [keyIdToDoc, List.map_append, List.map_cons, List.map_nil] <;> decide
  · obtain ⟨s, hs⟩ := unit_entries u e he
    rw [hs, Json.text, DistinctKeys]; trivial

theorem units_distinct {k : Kind} {name : Str} {us : Units k} : ∀ e ∈ unitsField name us, DistinctKeys e.2 := by
  intro e he
  unfold unitsField at he
  split at he
  · cases he
  · simp only [List.mem_singleton] at he
    subst he
    unfold Units.toDoc
    rw [DistinctKeys]
    refine distinctKeysSeq_of fun t ht => ?_
    obtain ⟨u, _, rfl⟩ := List.mem_map.1 ht
    exact unit_distinct u

theorem metadata_distinct {M : Type} {showMac : M → Str} (md : Metadata M) : DistinctKeys (.map (md.toDoc showMac) : Json) := by
  rw [DistinctKeys]
  refine ⟨toDoc_keys_nodup showMac md, distinctKeysMap_of fun e he => ?_⟩
  have text : ∀ {e : Str × Json} s, e.2 = Json.text s → DistinctKeys e.2 := fun {e} s h => by
    rw [h, Json.text, DistinctKeys]; trivial
  unfold Metadata.toDoc at he
  simp only [List.mem_append] at he
  rcases he with (((he | he) | he) | he) | he
  · exact units_distinct e he
  · exact units_distinct e he
  · simp only [List.mem_cons, List.not_mem_nil, or_false] at he
    rcases he with rfl | rfl <;> exact text _ rfl
  · split at he
    · rename_i p _
      simp only [List.mem_singleton] at he
      subst he
      cases p <;> exact text _ rfl
    · cases he
  · split at he
    · simp only [List.mem_singleton] at he
      subst he
      rw [DistinctKeys]; trivial
    · cases he

theorem metadata_sound (S : TomlScalars) {M : Type} {showMac : M → Str} (md : Metadata M) :
    TomlSound S (.table (Toml.ofMap Toml.ofScalar (md.toDoc showMac))) := by
  have h := (sound_ofTree (S := S) (f := Toml.ofScalar)).1 (.map (md.toDoc showMac)) (metadata_distinct md) fun p pv hp => by
    have := plainTree_map (fun e he => (metadata_entries (showMac := showMac) (md := md) e he).1) p pv hp
    obtain ⟨_, v⟩ := pv
    match v, this with
    | .bool _, _ => rw [Toml.ofScalar, TomlSound] <;> (first | exact trivial | (intros; contradiction))
    | .str _, _ => rw [Toml.ofScalar, TomlSound] <;> (first | exact trivial | (intros; contradiction))
  rwa [Toml.ofTree] at h

theorem metadata_levels {M : Type} {showMac : M → Str} (md : Metadata M) :
    tomlLevels (.table (Toml.ofMap Toml.ofScalar (md.toDoc showMac))) ≤ 3 := by
  have h := (levels_ofTree ofScalar_levels).1 (.map (md.toDoc showMac))
  rw [Toml.ofTree] at h
  rw [h, nesting]
  have := nestingMap_le.2 fun e he => (metadata_entries (showMac := showMac) (md := md) e he).2
  omega

/-! ## Files -/

theorem leaf_sound {S : TomlScalars} (hk : ∀ t f, tomlReadFloat S t = some f → TomlScalarKept S (tomlFloat f) (.float f)) {v : Value}
    (hv : ValueRead S v) : TomlSound S (Toml.ofValue v) := by
  cases v with
  | float f => rw [Toml.ofValue, TomlSound]; exact hk _ _ hv.choose_spec
  | string s => rw [Toml.ofValue, TomlSound] <;> (first | exact trivial | (intros; contradiction))
  | boolean b => rw [Toml.ofValue, TomlSound] <;> (first | exact trivial | (intros; contradiction))
  | integer n => rw [Toml.ofValue, TomlSound] <;> (first | exact trivial | (intros; contradiction))

/-- The document of an encrypted file for a document that may be encrypted is read from its text. -/
theorem toml_writable {S : TomlScalars} {fl : FloatOps} (hS : TomlScalarLaws S fl) {C : Cipher} {s : Str} {d : List (Str × Toml)}
    (hp : S.ops.parse s = some d) (h : TomlPortable S d) {m : RMap Value} (hm : Toml.toMap d = .ok m) {m' : RMap EncLeaf}
    (hs : StandsFor m m') {f : EncFile Format.toml} (hf : Format.toml.encOfInternal C m' = some f.map) :
    TomlWritable S (EncFile.toDoc .toml C f) := by
  have hr := parse_read hp
  obtain ⟨_, b1, _, d1⟩ := Toml.to_facts.2.2 d m hm
  cases hr with
  | table hn hr =>
  obtain ⟨e1, e2⟩ := (Toml.to_read hS.dates).2.2 d m hm hr
  obtain ⟨c1, c2⟩ := hs
  have hf : Toml.ofMap (Toml.ofEncLeaf C) m' = f.map := Option.some.inj hf
  have hkeys : m'.map Prod.fst = d.map Prod.fst := by
    rw [← shapeMap_keys m', c1, shapeMap_keys, d1]
  have hdoc : @Eq (List (Str × Toml)) (EncFile.toDoc .toml C f) <| Toml.ofMap (Toml.ofEncLeaf C) m' ++
      [(sopsKey, .table (Toml.ofMap Toml.ofScalar (f.metadata.toDoc fun e => e.toText C)))] := by
    show IndexMap.insert f.map sopsKey _ = _
    rw [← hf]
    exact IndexMap.insert_of_not_mem (by rw [ofMap_keys, hkeys]; exact h.sops)
  rw [hdoc]
  have table : ∀ l : List (Str × Toml), (l.map Prod.fst).Nodup → TomlSoundMap S l → TomlSound S (.table l) := fun l h1 h2 => by
    rw [TomlSound]; exact ⟨h1, h2⟩
  constructor
  · refine table _ ?_ ?_
    · rw [List.map_append, ofMap_keys, hkeys, List.map_cons, List.map_nil]
      exact List.nodup_append.2 ⟨hn, List.nodup_cons.2 ⟨List.not_mem_nil, List.nodup_nil⟩, fun a ha b hb e => by
        simp only [List.mem_singleton] at hb
        subst hb; subst e
        exact h.sops ha⟩
    · refine soundMap_append ?_ ?_
      · refine sound_ofTree.2.2 m' (shape_distinct.2.2 m' |>.1 (by rw [c1]; exact (shape_distinct.2.2 m).2 e1)) fun p pv hp' => ?_
        obtain ⟨q, hq⟩ := leaf_anywhere_map hp' []
        obtain ⟨a, ha, _, hx⟩ := c2.left hq
        simp only at hx
        rcases hx with hx | ⟨e, hx⟩
        · rw [hx]
          exact leaf_sound hS.kept (e2 [] a ha)
        · rw [hx, Toml.ofEncLeaf, TomlSound] <;> (first | exact trivial | (intros; contradiction))
      · rw [TomlSoundMap, TomlSoundMap]
        exact ⟨metadata_sound S _, trivial⟩
  · rw [tomlLevels, tomlLevelsMap_append, (levels_ofTree (ofEncLeaf_levels C)).2.2, ← shape_nesting.2.2, c1, shape_nesting.2.2, b1,
      tomlLevelsMap, tomlLevelsMap]
    have h1 := h.levels
    rw [tomlLevels] at h1
    have h2 := metadata_levels (showMac := fun e => e.toText C) f.metadata
    have h3 := hS.room
    omega

theorem toml_readBack {S : TomlScalars} {fl : FloatOps} (hS : TomlScalarLaws S fl) {C : Cipher} {s : Str} {d : List (Str × Toml)}
    (hp : S.ops.parse s = some d) (h : TomlPortable S d) {m : RMap Value} (hm : Toml.toMap d = .ok m) (s' : Str) :
    ReadBack C .toml S.ops m s' := fun f m' hs hf he => by
  rw [he]
  have hw := toml_writable hS hp h hm hs hf
  exact toml_parse_render hw

theorem toml_keepable {S : TomlScalars} {fl : FloatOps} (hS : TomlScalarLaws S fl) {s : Str} {d : List (Str × Toml)}
    (hp : S.ops.parse s = some d) (h : TomlPortable S d) {m : RMap Value} (hm : Toml.toMap d = .ok m) : Keepable fl .toml m := by
  have hr := parse_read hp
  obtain ⟨_, _, c1, d1⟩ := Toml.to_facts.2.2 d m hm
  cases hr with
  | table hn hr =>
  obtain ⟨e1, e2⟩ := (Toml.to_read hS.dates).2.2 d m hm hr
  refine ⟨fun p => ⟨fun pv hpv => ?_, fun pv hpv => ?_, fun _ => .inl fun pv hpv k hk => ?_⟩, ?_, fun _ => ⟨?_, ?_⟩⟩
  · have := e2 [] pv hpv
    obtain ⟨q, v⟩ := pv
    cases v with
    | float f => exact hS.canonical _ _ this.choose_spec
    | string s => trivial
    | boolean b => trivial
    | integer i => trivial
  · have := e2 [] pv hpv
    obtain ⟨q, v⟩ := pv
    intro hv
    simp only at hv
    subst hv
    exact this rfl
  · obtain ⟨v', hv'⟩ := leaf_of_shape c1 hpv
    exact h.colon _ hv' k hk
  · show c!"sops" ∉ m.map Prod.fst
    rw [d1]
    exact h.sops
  · show (m.map Prod.fst).Nodup
    rw [d1]
    exact hn
  · exact valuesFirst_of_shape.2.2 _ m c1.symm h.order

theorem rustScalars_laws {date : Str → Option Str} (hd : ∀ t x, date t = some x → x ≠ c!"null") :
    TomlScalarLaws (rustScalars date) f64Floats where
  canonical t f h := by
    obtain ⟨x, hx, rfl⟩ := readFloat_show h
    unfold FloatOps.Canonical f64Floats
    simp only [parse_show hx]
    rfl
  kept t f h := by
    obtain ⟨x, hx, rfl⟩ := readFloat_show h
    exact float_kept date hx
  dates := hd
  room := show 4 < 80 by decide

/-! ## Documents that do not change -/

theorem isMap_tomlDoc (t : Toml) : isMap (tomlDoc t) = t.isTable := by
  cases t with
  | str s => rw [tomlDoc]; split <;> rfl
  | int n => rw [tomlDoc]; rfl
  | float n => rw [tomlDoc]; rfl
  | bool n => rw [tomlDoc]; rfl
  | datetime n => rw [tomlDoc]; rfl
  | array l => rw [tomlDoc]; rfl
  | table l => rw [tomlDoc]; rfl

theorem sectionSeq_tomlDoc (l : List Toml) :
    (!(tomlSeq l).isEmpty && (tomlSeq l).all isMap) = (!l.isEmpty && l.all Toml.isTable) := by
  have h : (tomlSeq l).all isMap = l.all Toml.isTable := by
    induction l with
    | nil => rw [tomlSeq]; rfl
    | cons t r ih => rw [tomlSeq, List.all_cons, List.all_cons, ih, isMap_tomlDoc]
  rw [h]
  cases l with
  | nil => rw [tomlSeq]; rfl
  | cons t r => rw [tomlSeq]; rfl

theorem isSection_tomlDoc (t : Toml) : isSection (tomlDoc t) = t.section := by
  cases t with
  | str s => rw [tomlDoc]; split <;> rfl
  | int n => rw [tomlDoc]; rfl
  | float n => rw [tomlDoc]; rfl
  | bool n => rw [tomlDoc]; rfl
  | datetime n => rw [tomlDoc]; rfl
  | array l => rw [tomlDoc]; exact sectionSeq_tomlDoc l
  | table l => rw [tomlDoc]; rfl

theorem plain_none {m : List (Str × Toml)} (h : ∀ e ∈ tomlMap m, isSection e.2 = true) : Toml.plainEntries m = [] := by
  induction m with
  | nil => rw [Toml.plainEntries]
  | cons e r ih =>
    obtain ⟨k, t⟩ := e
    rw [tomlMap] at h
    rw [Toml.plainEntries, if_pos (by rw [← isSection_tomlDoc]; exact h _ (.head _))]
    exact ih fun e he => h e (.tail _ he)

/-- A document with values before sections is written in its order. -/
theorem order_of_valuesFirst :
    (∀ t : Toml, ValuesFirst (tomlDoc t) → t.order = t) ∧
    (∀ l : List Toml, ValuesFirstSeq (tomlSeq l) → Toml.orderSeq l = l) ∧
    (∀ m : List (Str × Toml), ValuesFirstMap (tomlMap m) → Toml.plainEntries m ++ Toml.sectionEntries m = m) := by
  apply Toml.induct
  · intro s _; rw [Toml.order] <;> (intros; contradiction)
  · intro s _; rw [Toml.order] <;> (intros; contradiction)
  · intro s _; rw [Toml.order] <;> (intros; contradiction)
  · intro s _; rw [Toml.order] <;> (intros; contradiction)
  · intro s _; rw [Toml.order] <;> (intros; contradiction)
  · intro l ih h
    rw [tomlDoc, ValuesFirst, sectionSeq_tomlDoc] at h
    rw [Toml.order]
    split
    · rename_i hs; rw [ih (h hs)]
    · rfl
  · intro m ih h
    rw [tomlDoc, ValuesFirst] at h
    rw [Toml.order, ih h]
  · intro _; rw [Toml.orderSeq]
  · intro t r h1 h2 h
    rw [tomlSeq, ValuesFirstSeq] at h
    rw [Toml.orderSeq, h1 h.1, h2 h.2]
  · intro _; rw [Toml.plainEntries, Toml.sectionEntries]; rfl
  · intro k t r h1 h2 h
    rw [tomlMap, ValuesFirstMap, isSection_tomlDoc] at h
    have h2 := h2 h.2.2
    rw [Toml.plainEntries, Toml.sectionEntries]
    split
    · rename_i hs
      have hp := plain_none (h.1 hs)
      rw [hp] at h2 ⊢
      rw [h1 h.2.1]
      simp only [List.nil_append] at h2 ⊢
      rw [h2]
    · rw [List.cons_append, h2]

/-- A document without dates. -/
theorem undated_of_none :
    (∀ t : Toml, ∀ p, (∀ q s, (q, .date s) ∉ leavesAt p (tomlDoc t)) → tomlUndated t = t) ∧
    (∀ l : List Toml, ∀ p, (∀ q s, (q, .date s) ∉ leavesSeq p (tomlSeq l)) → tomlUndatedSeq l = l) ∧
    (∀ m : List (Str × Toml), ∀ p, (∀ q s, (q, .date s) ∉ leavesMap p (tomlMap m)) → tomlUndatedMap m = m) := by
  apply Toml.induct
  · intro s p _; rw [tomlUndated] <;> (intros; contradiction)
  · intro s p _; rw [tomlUndated] <;> (intros; contradiction)
  · intro s p _; rw [tomlUndated] <;> (intros; contradiction)
  · intro s p _; rw [tomlUndated] <;> (intros; contradiction)
  · intro s p h
    exact absurd (by rw [tomlDoc, leavesAt]; exact .head _) (h p s)
  · intro l ih p h
    rw [tomlUndated, ih p fun q s hq => h q s (by rw [tomlDoc, leavesAt]; exact hq)]
  · intro l ih p h
    rw [tomlUndated, ih p fun q s hq => h q s (by rw [tomlDoc, leavesAt]; exact hq)]
  · intro p _; rw [tomlUndatedSeq]
  · intro t r h1 h2 p h
    rw [tomlUndatedSeq, h1 p fun q s hq => h q s (by rw [tomlSeq, leavesSeq]; exact List.mem_append_left _ hq),
      h2 p fun q s hq => h q s (by rw [tomlSeq, leavesSeq]; exact List.mem_append_right _ hq)]
  · intro p _; rw [tomlUndatedMap]
  · intro k t r h1 h2 p h
    rw [tomlUndatedMap, h1 (p ++ [k]) fun q s hq => h q s (by rw [tomlMap, leavesMap]; exact List.mem_append_left _ hq),
      h2 p fun q s hq => h q s (by rw [tomlMap, leavesMap]; exact List.mem_append_right _ hq)]

end Rops
