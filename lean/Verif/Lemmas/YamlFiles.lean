import Verif.Spec.YamlFiles
import Verif.Lemmas.YamlScalars
import Verif.Lemmas.TomlFiles
import Verif.Lemmas.ContentFormats
/-!
# Encrypted YAML files are read from their texts
-/

namespace Rops
open Spec

/-! ## Documents that are read -/

/-- The value may have been read: if it is a float then it is given by the text that Rust prints. -/
def ValueShown : Value → Prop
  | .float f => ∃ x, InRange x ∧ f = x.show
  | _ => True

theorem number_back {n : Number} {v : Value} (hs : YamlSound (.num n)) (h : n.toInternal = .ok v) : Yaml.ofValue v = .num n ∧ ValueShown v := by
  match n, hs with
  | .float s, hs => cases h; exact ⟨rfl, hs⟩
  | .negInt i, hs =>
    cases h
    have hs : i.toInt < 0 := hs
    refine ⟨?_, trivial⟩
    simp only [Yaml.ofValue, Number.ofI64]
    rw [if_neg (by omega)]
  | .posInt u, _ =>
    simp only [Number.toInternal] at h
    split at h
    · rename_i i hi
      cases h
      refine ⟨?_, trivial⟩
      simp only [Yaml.ofValue]
      congr 1
      simp only [Number.asI64] at hi
      split at hi
      · rename_i hu
        cases hi
        unfold Number.ofI64
        rw [Int64.toInt_ofNat_of_lt hu, if_pos (by omega), Int.toNat_natCast]
        simp
      · cases hi
    · cases h

theorem Yaml.to_facts :
    (∀ t : Yaml, ∀ z, Yaml.toTree t = .ok z → YamlSound t → Yaml.ofTree Yaml.ofValue z = untag t ∧
      (∃ x, yamlDoc t = some x ∧ shape z = shape x) ∧ DistinctKeys z ∧ ∀ p, ∀ pv ∈ leavesAt p z, ValueShown pv.2) ∧
    (∀ l : List Yaml, ∀ z, Yaml.toSeq l = .ok z → YamlSoundSeq l → Yaml.ofSeq Yaml.ofValue z = untagSeq l ∧
      (∃ x, yamlSeq l = some x ∧ shapeSeq z = shapeSeq x) ∧ DistinctKeysSeq z ∧ ∀ p, ∀ pv ∈ leavesSeq p z, ValueShown pv.2) ∧
    (∀ m : List (Yaml × Yaml), ∀ z, Yaml.toMap m = .ok z → YamlSoundMap m → Yaml.ofMap Yaml.ofValue z = untagMap m ∧
      (∃ x, yamlMap m = some x ∧ shapeMap z = shapeMap x) ∧ DistinctKeysMap z ∧ (∀ p, ∀ pv ∈ leavesMap p z, ValueShown pv.2) ∧
      yamlTextKeys m = z.map Prod.fst) := by
  have leaf : ∀ {v : Value}, ValueShown v → ∀ p, ∀ pv ∈ leavesAt p (.leaf v), ValueShown pv.2 := fun hv p pv h => by
    simp only [leavesAt, List.mem_singleton] at h; subst h; exact hv
  apply Yaml.induct
  · intro z h _
    simp only [Yaml.toTree, Except.ok.injEq] at h; subst h
    exact ⟨by simp only [Yaml.ofTree, untag], ⟨.null, by simp only [yamlDoc], rfl⟩, by simp only [DistinctKeys],
      fun p pv h => by simp only [leavesAt] at h; cases h⟩
  · intro b z h _
    simp only [Yaml.toTree, Except.ok.injEq] at h; subst h
    exact ⟨by simp only [Yaml.ofTree, untag, Yaml.ofValue], ⟨_, by rw [yamlDoc], by simp only [shape]⟩,
      by simp only [DistinctKeys], leaf trivial⟩
  · intro n z h hs
    simp only [Yaml.toTree] at h
    split at h
    · rename_i v hv
      cases h
      obtain ⟨a, b⟩ := number_back hs hv
      exact ⟨by simp only [Yaml.ofTree, untag, a], ⟨_, by rw [yamlDoc], by simp only [shape]⟩, by simp only [DistinctKeys], leaf b⟩
    · cases h
  · intro s z h _
    simp only [Yaml.toTree, Except.ok.injEq] at h; subst h
    exact ⟨by simp only [Yaml.ofTree, untag, Yaml.ofValue], ⟨_, by rw [yamlDoc], by simp only [shape]⟩,
      by simp only [DistinctKeys], leaf trivial⟩
  · intro l ih z h hs
    simp only [Yaml.toTree] at h
    split at h
    · rename_i l' hl
      cases h
      unfold YamlSound at hs
      obtain ⟨a, ⟨x, b1, b2⟩, c, d⟩ := ih _ hl hs
      exact ⟨by simp only [Yaml.ofTree, untag, a], ⟨.seq x, by simp only [yamlDoc, b1, Option.map_some], by simp only [shape, b2]⟩,
        by simp only [DistinctKeys, c], fun p pv hp => by simp only [leavesAt] at hp; exact d p pv hp⟩
    · cases h
  · intro m ih z h hs
    simp only [Yaml.toTree] at h
    split at h
    · rename_i l' hl
      cases h
      unfold YamlSound at hs
      obtain ⟨a, ⟨x, b1, b2⟩, c, d, e⟩ := ih _ hl hs.2
      refine ⟨by simp only [Yaml.ofTree, untag, a], ⟨.map x, by simp only [yamlDoc, b1, Option.map_some], by simp only [shape, b2]⟩,
        ?_, fun p pv hp => by simp only [leavesAt] at hp; exact d p pv hp⟩
      rw [DistinctKeys, ← e]
      exact ⟨hs.1, c⟩
    · cases h
  · intro s v ih z h hs
    simp only [Yaml.toTree] at h
    unfold YamlSound at hs
    obtain ⟨a, ⟨x, b1, b2⟩, c, d⟩ := ih _ h hs
    exact ⟨by simp only [untag, a], ⟨x, by simp only [yamlDoc, b1], b2⟩, c, d⟩
  · intro z h _
    simp only [Yaml.toSeq, Except.ok.injEq] at h; subst h
    exact ⟨by simp only [Yaml.ofSeq, untagSeq], ⟨[], by simp only [yamlSeq], rfl⟩, by simp only [DistinctKeysSeq],
      fun p pv hp => by simp only [leavesSeq] at hp; cases hp⟩
  · intro t r h1 h2 z h hs
    simp only [Yaml.toSeq] at h
    unfold YamlSoundSeq at hs
    split at h
    · rename_i t' ht
      split at h
      · rename_i r' hr
        cases h
        obtain ⟨a, ⟨x, b1, b2⟩, c, d⟩ := h1 _ ht hs.1
        obtain ⟨a', ⟨x', b1', b2'⟩, c', d'⟩ := h2 _ hr hs.2
        refine ⟨by simp only [Yaml.ofSeq, untagSeq, a, a'], ⟨x :: x', by simp only [yamlSeq, b1, b1'], by simp only [shapeSeq, b2, b2']⟩,
          by rw [DistinctKeysSeq]; exact ⟨c, c'⟩, fun p pv hp => ?_⟩
        simp only [leavesSeq, List.mem_append] at hp
        exact hp.elim (d _ pv) (d' p pv)
      · cases h
    · cases h
  · intro z h _
    simp only [Yaml.toMap, Except.ok.injEq] at h; subst h
    exact ⟨by simp only [Yaml.ofMap, untagMap], ⟨[], by simp only [yamlMap], rfl⟩, by simp only [DistinctKeysMap],
      (fun p pv hp => by simp only [leavesMap] at hp; cases hp), rfl⟩
  · intro k t r _ h1 h2 z h hs
    simp only [Yaml.toMap] at h
    unfold YamlSoundMap at hs
    split at h
    · cases h
    · rename_i k' hk
      split at h
      · rename_i t' ht
        split at h
        · rename_i r' hr
          cases h
          obtain ⟨a, ⟨x, b1, b2⟩, c, d⟩ := h1 _ ht hs.2.1
          obtain ⟨a', ⟨x', b1', b2'⟩, c', d', e'⟩ := h2 _ hr hs.2.2
          cases k with
          | str k =>
            cases hk
            refine ⟨by simp only [Yaml.ofMap, untagMap, a, a'],
              ⟨(k', x) :: x', by simp only [yamlMap, b1, b1'], by simp only [shapeMap, b2, b2']⟩,
              by rw [DistinctKeysMap]; exact ⟨c, c'⟩, fun p pv hp => ?_, ?_⟩
            · simp only [leavesMap, List.mem_append] at hp
              exact hp.elim (d _ pv) (d' p pv)
            · show k' :: yamlTextKeys r = _
              rw [e']
              rfl
          | _ => cases hk
        · cases h
      · cases h

/-! ## Documents that are written -/

theorem yamlKeys_ofMap {α : Type} (f : α → Yaml) (m : RMap α) : yamlTextKeys (Yaml.ofMap f m) = m.map Prod.fst := by
  rw [Yaml.ofMap_eq]
  unfold yamlTextKeys
  induction m with
  | nil => rfl
  | cons e r ih =>
    simp only [List.map_cons, List.filterMap_cons, ih]

theorem ofTree_plain {α : Type} {f : α → Yaml} (hf : ∀ a, Untagged (f a) ∧ ∃ s, yamlDoc (f a) = some (.leaf s)) :
    (∀ t : Tree α, Untagged (Yaml.ofTree f t) ∧ ∃ x, yamlDoc (Yaml.ofTree f t) = some x ∧ shape x = shape t) ∧
    (∀ l : List (Tree α), UntaggedSeq (Yaml.ofSeq f l) ∧ ∃ x, yamlSeq (Yaml.ofSeq f l) = some x ∧ shapeSeq x = shapeSeq l) ∧
    (∀ m : RMap α, UntaggedMap (Yaml.ofMap f m) ∧ ∃ x, yamlMap (Yaml.ofMap f m) = some x ∧ shapeMap x = shapeMap m) := by
  apply Tree.induct
  · rintro l ⟨h1, x, h2, h3⟩
    exact ⟨by simpa only [Yaml.ofTree, Untagged] using h1, .seq x, by simp only [Yaml.ofTree, yamlDoc, h2, Option.map_some], by simp only [shape, h3]⟩
  · rintro l ⟨h1, x, h2, h3⟩
    exact ⟨by simpa only [Yaml.ofTree, Untagged] using h1, .map x, by simp only [Yaml.ofTree, yamlDoc, h2, Option.map_some], by simp only [shape, h3]⟩
  · exact ⟨trivial, .null, rfl, rfl⟩
  · intro a
    obtain ⟨h1, s, h2⟩ := hf a
    exact ⟨by simpa only [Yaml.ofTree] using h1, _, by simpa only [Yaml.ofTree] using h2, by simp only [shape]⟩
  · exact ⟨trivial, [], rfl, rfl⟩
  · rintro t r ⟨h1, x, h2, h3⟩ ⟨h1', x', h2', h3'⟩
    exact ⟨by rw [Yaml.ofSeq, UntaggedSeq]; exact ⟨h1, h1'⟩, x :: x', by simp only [Yaml.ofSeq, yamlSeq, h2, h2'], by simp only [shapeSeq, h3, h3']⟩
  · exact ⟨trivial, [], rfl, rfl⟩
  · rintro k t r ⟨h1, x, h2, h3⟩ ⟨h1', x', h2', h3'⟩
    exact ⟨by rw [Yaml.ofMap, UntaggedMap]; exact ⟨trivial, h1, h1'⟩, (k, x) :: x', by simp only [Yaml.ofMap, yamlMap, h2, h2'],
      by simp only [shapeMap, h3, h3']⟩

theorem yamlSound_ofTree {α : Type} {f : α → Yaml} :
    (∀ t : Tree α, DistinctKeys t → (∀ p, ∀ pv ∈ leavesAt p t, YamlSound (f pv.2)) → YamlSound (Yaml.ofTree f t)) ∧
    (∀ l : List (Tree α), DistinctKeysSeq l → (∀ p, ∀ pv ∈ leavesSeq p l, YamlSound (f pv.2)) → YamlSoundSeq (Yaml.ofSeq f l)) ∧
    (∀ m : RMap α, DistinctKeysMap m → (∀ p, ∀ pv ∈ leavesMap p m, YamlSound (f pv.2)) → YamlSoundMap (Yaml.ofMap f m)) := by
  apply Tree.induct
  · intro l ih hd h
    rw [Yaml.ofTree, YamlSound]
    exact ih (by rw [DistinctKeys] at hd; exact hd) fun p pv hp => h p pv (by rw [leavesAt]; exact hp)
  · intro m ih hd h
    rw [DistinctKeys] at hd
    rw [Yaml.ofTree, YamlSound, yamlKeys_ofMap]
    exact ⟨hd.1, ih hd.2 fun p pv hp => h p pv (by rw [leavesAt]; exact hp)⟩
  · intro _ _
    exact trivial
  · intro a _ h
    rw [Yaml.ofTree]
    exact h [] ([], a) (by rw [leavesAt]; exact .head _)
  · intro _ _; rw [Yaml.ofSeq, YamlSoundSeq]; trivial
  · intro t r h1 h2 hd h
    rw [DistinctKeysSeq] at hd
    rw [Yaml.ofSeq, YamlSoundSeq]
    exact ⟨h1 hd.1 fun p pv hp => h p pv (by rw [leavesSeq]; exact List.mem_append_left _ hp),
      h2 hd.2 fun p pv hp => h p pv (by rw [leavesSeq]; exact List.mem_append_right _ hp)⟩
  · intro _ _; rw [Yaml.ofMap, YamlSoundMap]; trivial
  · intro k t r h1 h2 hd h
    rw [DistinctKeysMap] at hd
    rw [Yaml.ofMap, YamlSoundMap]
    refine ⟨trivial, h1 hd.1 fun p pv hp => ?_,
      h2 hd.2 fun p pv hp => h p pv (by rw [leavesMap]; exact List.mem_append_right _ hp)⟩
    obtain ⟨q, hq⟩ := leaf_anywhere hp ([] ++ [k])
    exact h [] (q, pv.2) (by rw [leavesMap]; exact List.mem_append_left _ hq)

theorem ofValue_plain (v : Value) : Untagged (Yaml.ofValue v) ∧ ∃ s, yamlDoc (Yaml.ofValue v) = some (.leaf s) := by
  cases v <;> exact ⟨trivial, _, rfl⟩

theorem ofEncLeaf_plain (C : Cipher) (e : EncLeaf) : Untagged (Yaml.ofEncLeaf C e) ∧ ∃ s, yamlDoc (Yaml.ofEncLeaf C e) = some (.leaf s) := by
  cases e with
  | encrypted e => exact ⟨trivial, _, rfl⟩
  | escaped v => exact ofValue_plain v

theorem ofScalar_plain (s : JsonScalar) : Untagged (Yaml.ofScalar s) ∧ ∃ x, yamlDoc (Yaml.ofScalar s) = some (.leaf x) := by
  cases s <;> exact ⟨trivial, _, rfl⟩

theorem yamlMap_append {a b : List (Yaml × Yaml)} {x y : RMap Scalar} (ha : yamlMap a = some x) (hb : yamlMap b = some y) :
    yamlMap (a ++ b) = some (x ++ y) := by
  induction a generalizing x with
  | nil => cases ha; exact hb
  | cons e r ih =>
    obtain ⟨k, t⟩ := e
    cases k with
    | str k =>
      simp only [yamlMap] at ha
      split at ha
      · rename_i t' r' ht hr
        cases ha
        simp only [List.cons_append, yamlMap, ht, ih hr]
      · cases ha
    | _ => simp [yamlMap] at ha

theorem untaggedMap_append {a b : List (Yaml × Yaml)} (ha : UntaggedMap a) (hb : UntaggedMap b) : UntaggedMap (a ++ b) := by
  induction a with
  | nil => exact hb
  | cons e r ih =>
    obtain ⟨k, t⟩ := e
    rw [UntaggedMap] at ha
    rw [List.cons_append, UntaggedMap]
    exact ⟨ha.1, ha.2.1, ih ha.2.2⟩

theorem yamlSoundMap_append {a b : List (Yaml × Yaml)} (ha : YamlSoundMap a) (hb : YamlSoundMap b) : YamlSoundMap (a ++ b) := by
  induction a with
  | nil => exact hb
  | cons e r ih =>
    obtain ⟨k, t⟩ := e
    rw [YamlSoundMap] at ha
    rw [List.cons_append, YamlSoundMap]
    exact ⟨ha.1, ha.2.1, ih ha.2.2⟩

theorem nestingMap_append {α : Type} (a b : RMap α) : nestingMap (a ++ b) = max (nestingMap a) (nestingMap b) := by
  induction a with
  | nil => simp [nestingMap]
  | cons e r ih => obtain ⟨k, t⟩ := e; simp only [List.cons_append, nestingMap, ih]; omega

theorem yamlMetadata_sound {M : Type} {showMac : M → Str} (md : Metadata M) :
    YamlSound (.map (Yaml.ofMap Yaml.ofScalar (md.toDoc showMac))) := by
  have h := (yamlSound_ofTree (f := Yaml.ofScalar)).1 (.map (md.toDoc showMac)) (metadata_distinct md) fun p pv hp => by
    have := plainTree_map (fun e he => (metadata_entries (showMac := showMac) (md := md) e he).1) p pv hp
    obtain ⟨_, v⟩ := pv
    match v, this with
    | .bool _, _ => exact trivial
    | .str _, _ => exact trivial
  rwa [Yaml.ofTree] at h

/-! ## Files -/

theorem value_yamlSound {v : Value} (hv : ValueShown v) : YamlSound (Yaml.ofValue v) := by
  cases v with
  | float f => exact hv
  | string s => exact trivial
  | boolean b => exact trivial
  | integer n =>
    simp only [Yaml.ofValue, Number.ofI64]
    split
    · exact trivial
    · show n.toInt < 0
      omega

/-- The document of an encrypted file for a document that may be encrypted is ordinary. -/
theorem yaml_writable {limit : Nat} (hroom : 4 < limit) {C : Cipher} {d : List (Yaml × Yaml)} (hs : YamlSound (.map d))
    (h : YamlPortable limit d) {m : RMap Value} (hm : Yaml.toMap d = .ok m) {m' : RMap EncLeaf} (hst : StandsFor m m')
    {f : EncFile Format.yaml} (hf : Format.yaml.encOfInternal C m' = some f.map) :
    YamlOrdinary limit (Yaml.entryNodes (show List (Yaml × Yaml) from EncFile.toDoc .yaml C f)) ∧
      YamlSound (.map (show List (Yaml × Yaml) from EncFile.toDoc .yaml C f)) := by
  unfold YamlSound at hs
  obtain ⟨_, ⟨t, b1, b2⟩, e1, e2, d1⟩ := Yaml.to_facts.2.2 d m hm hs.2
  obtain ⟨t', ht, hsops, _, hlev⟩ := h
  rw [b1] at ht
  cases ht
  obtain ⟨c1, c2⟩ := hst
  have hf : Yaml.ofMap (Yaml.ofEncLeaf C) m' = f.map := Option.some.inj hf
  have hkeys : m'.map Prod.fst = t.map Prod.fst := by
    rw [← shapeMap_keys m', c1, b2, shapeMap_keys]
  have hdoc : @Eq (List (Yaml × Yaml)) (EncFile.toDoc .yaml C f) <| Yaml.ofMap (Yaml.ofEncLeaf C) m' ++
      [(.str sopsKey, .map (Yaml.ofMap Yaml.ofScalar (f.metadata.toDoc fun e => e.toText C)))] := by
    rw [hf]
    rfl
  show YamlOrdinary limit (Yaml.entryNodes (EncFile.toDoc .yaml C f)) ∧ YamlSound (.map (EncFile.toDoc .yaml C f))
  rw [hdoc]
  obtain ⟨u1, x, u2, u3⟩ := (ofTree_plain (ofEncLeaf_plain C)).2.2 m'
  obtain ⟨v1, y, v2, v3⟩ := (ofTree_plain ofScalar_plain).2.2 (f.metadata.toDoc fun e => e.toText C)
  constructor
  · refine ⟨_, x ++ [(sopsKey, .map y)], rfl, untaggedMap_append u1 ?_, yamlMap_append u2 ?_, ?_⟩
    · rw [UntaggedMap, UntaggedMap]
      exact ⟨trivial, v1, trivial⟩
    · simp only [yamlMap, yamlDoc, v2, Option.map_some]
    · rw [nestingMap_append, nestingMap, nesting, nestingMap, ← shape_nesting.2.2 x, u3, c1, b2, shape_nesting.2.2,
        ← shape_nesting.2.2 y, v3, shape_nesting.2.2]
      have : nestingMap (f.metadata.toDoc fun e => e.toText C) ≤ 2 := nestingMap_le.2 fun e he => (metadata_entries e he).2
      omega
  · rw [YamlSound]
    constructor
    · have happ : ∀ a b, yamlTextKeys (a ++ b) = yamlTextKeys a ++ yamlTextKeys b := fun a b => List.filterMap_append
      rw [happ, yamlKeys_ofMap, hkeys]
      refine List.nodup_append.2 ⟨?_, ?_, fun a ha b hb e => ?_⟩
      · rw [← shapeMap_keys t, ← b2, shapeMap_keys, ← d1]
        exact hs.1
      · exact List.nodup_cons.2 ⟨List.not_mem_nil, List.nodup_nil⟩
      · have hb : b ∈ [sopsKey] := hb
        simp only [List.mem_singleton] at hb
        subst hb; subst e
        exact hsops ha
    · refine yamlSoundMap_append ?_ ?_
      · refine yamlSound_ofTree.2.2 m' (shape_distinct.2.2 m' |>.1 (by rw [c1]; exact (shape_distinct.2.2 m).2 e1)) fun p pv hp' => ?_
        obtain ⟨q, hq⟩ := leaf_anywhere_map hp' []
        obtain ⟨a, ha, _, hx⟩ := c2.left hq
        simp only at hx
        rcases hx with hx | ⟨e, hx⟩
        · rw [hx]
          exact value_yamlSound (e2 [] a ha)
        · rw [hx]
          exact trivial
      · rw [YamlSoundMap, YamlSoundMap]
        exact ⟨trivial, yamlMetadata_sound _, trivial⟩

theorem yaml_readBack {L : YamlLayout} {limit : Nat} (hL : YamlLaws L limit) {C : Cipher} {d : List (Yaml × Yaml)} (hs : YamlSound (.map d))
    (h : YamlPortable limit d) {m : RMap Value} (hm : Yaml.toMap d = .ok m) (s' : Str) : ReadBack C .yaml L.ops m s' :=
  fun f m' hst hf he => by
    rw [he]
    obtain ⟨h1, h2⟩ := yaml_writable hL.room hs h hm hst hf
    exact yaml_parse_render hL.layout h1 h2

theorem yaml_keepable {limit : Nat} {d : List (Yaml × Yaml)} (hs : YamlSound (.map d)) (h : YamlPortable limit d) {m : RMap Value}
    (hm : Yaml.toMap d = .ok m) : Keepable f64Floats .yaml m := by
  unfold YamlSound at hs
  obtain ⟨_, ⟨t, b1, b2⟩, e1, e2, d1⟩ := Yaml.to_facts.2.2 d m hm hs.2
  obtain ⟨t', ht, hsops, hcolon, _⟩ := h
  rw [b1] at ht
  cases ht
  refine ⟨fun p => ⟨fun pv hpv => ?_, fun pv hpv => trivial, fun _ => .inl fun pv hpv k hk => ?_⟩, ?_, fun h => nomatch h⟩
  · have := e2 [] pv hpv
    obtain ⟨q, v⟩ := pv
    cases v with
    | float f =>
      obtain ⟨x, hx, rfl⟩ := this
      show f64Floats.Canonical _
      unfold FloatOps.Canonical f64Floats
      simp only [parse_show hx]
      rfl
    | string s => trivial
    | boolean b => trivial
    | integer i => trivial
  · obtain ⟨v', hv'⟩ := leaf_of_shape b2 hpv
    exact hcolon _ hv' k hk
  · show c!"sops" ∉ m.map Prod.fst
    rw [← shapeMap_keys m, b2, shapeMap_keys]
    exact hsops

end Rops
