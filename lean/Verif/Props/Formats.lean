import Verif.Lemmas.Written
import Verif.Spec.Toy
import Verif.Props.Maps
/-!
# Properties of the format adapters

C28, C29 and C30.
-/

namespace Rops.Props
open Rops Spec Toy

/-! ## C28 -/

/-- C28. A map whose floats are finite converts to JSON, and reading the result gives the
same map. -/
theorem C28_json (m : RMap Value) (h : Holds jsonRep m) :
    ∃ x, Format.json.ofInternal m = some x ∧ Format.json.toInternal x = .ok m :=
  Format.json_lawful.round_trip m h

/-- C28. Every map converts to YAML, and reading the result gives the same map. -/
theorem C28_yaml (m : RMap Value) :
    ∃ x, Format.yaml.ofInternal m = some x ∧ Format.yaml.toInternal x = .ok m :=
  Format.yaml_lawful.round_trip m (fun _ _ => trivial)

/-- C28. A map without the string "null" converts to TOML, and reading the result gives the
same map. -/
theorem C28_toml (m : RMap Value) (h : Holds tomlRep m) :
    ∃ x, Format.toml.ofInternal m = some x ∧ Format.toml.toInternal x = .ok m :=
  Format.toml_lawful.round_trip m h

/-- C28. The JSON document written has the keys, nulls and nesting of the map and the scalars of
its values. -/
theorem C28_json_written {m : RMap Value} {x : Format.json.Map} (h : Format.json.ofInternal m = some x) :
    WrittenAs valueScalar m (jsonMap x) :=
  have := (json_written fun _ _ h => jsonScalar_ofInternal h).2.2 m x h
  ⟨this.1, this.2 []⟩

/-- C28. The same for YAML, without any tags. -/
theorem C28_yaml_written {m : RMap Value} {x : Format.yaml.Map} (h : Format.yaml.ofInternal m = some x) :
    UntaggedMap x ∧ ∃ d, yamlMap x = some d ∧ WrittenAs valueScalar m d := by
  cases h
  obtain ⟨d, h1, h2, h3, h4⟩ := (yaml_written yaml_ofValue).2.2 m
  exact ⟨h2, d, h1, h3, h4 []⟩

/-- C28. The same for TOML, without datetimes (these are never the scalar of a value). -/
theorem C28_toml_written {m : RMap Value} (hm : Holds tomlRep m) {x : Format.toml.Map}
    (h : Format.toml.ofInternal m = some x) : WrittenAs valueScalar m (tomlMap x) := by
  cases h
  have := toml_written.2.2 m [] fun pv hp => toml_ofValue (hm pv hp)
  exact ⟨this.1, this.2⟩

/-- A float, a list and a null of YAML. -/
example : ∃ x d, Format.yaml.ofInternal [(c!"a", .seq [.leaf (.float c!"1.5"), .null])] = some x ∧ yamlMap x = some d ∧
    leaves d = [([c!"a"], .float c!"1.5")] := by
  obtain ⟨_, d, h1, h2⟩ := C28_yaml_written (m := [(c!"a", .seq [.leaf (.float c!"1.5"), .null])]) rfl
  exact ⟨_, d, rfl, h1, h2.2⟩

theorem jsonRep_of_ofInternal {v : Value} {s : JsonScalar} (h : JsonScalar.ofInternal v = some s) : jsonRep v := by
  cases v with
  | float t =>
    simp only [JsonScalar.ofInternal] at h
    by_cases hf : floatFinite t = true
    · simp only [floatFinite, Bool.and_eq_true, decide_eq_true_eq] at hf
      exact ⟨hf.1.1, hf.1.2, hf.2⟩
    · rw [if_neg hf] at h; cases h
  | _ => trivial

theorem json_holds_of_ofInternal :
    (∀ t : Tree Value, ∀ p x, Tree.mapM JsonScalar.ofInternal t = some x → ∀ pv ∈ leavesAt p t, jsonRep pv.2) ∧
    (∀ l : List (Tree Value), ∀ p x, Tree.mapSeqM JsonScalar.ofInternal l = some x →
      ∀ pv ∈ leavesSeq p l, jsonRep pv.2) ∧
    (∀ m : RMap Value, ∀ p x, Tree.mapMapM JsonScalar.ofInternal m = some x →
      ∀ pv ∈ leavesMap p m, jsonRep pv.2) := by
  apply Tree.induct
  · intro l ih p x h
    rw [Tree.mapM] at h
    split at h
    · rename_i y hy; exact ih p y hy
    · cases h
  · intro l ih p x h
    rw [Tree.mapM] at h
    split at h
    · rename_i y hy; exact ih p y hy
    · cases h
  · intro p x h pv hpv; simp [leavesAt] at hpv
  · intro a p x h pv hpv
    rw [Tree.mapM] at h
    simp only [leavesAt, List.mem_singleton] at hpv
    subst hpv
    split at h
    · rename_i y hy; exact jsonRep_of_ofInternal hy
    · cases h
  · intro p x h pv hpv; simp [leavesSeq] at hpv
  · intro t r iht ihr p x h pv hpv
    rw [Tree.mapSeqM] at h
    simp only [leavesSeq, List.mem_append] at hpv
    split at h
    · rename_i y hy
      split at h
      · rename_i z hz
        rcases hpv with hpv | hpv
        · exact iht p y hy pv hpv
        · exact ihr p z hz pv hpv
      · cases h
    · cases h
  · intro p x h pv hpv; simp [leavesMap] at hpv
  · intro k t r iht ihr p x h pv hpv
    rw [Tree.mapMapM] at h
    simp only [leavesMap, List.mem_append] at hpv
    split at h
    · rename_i y hy
      split at h
      · rename_i z hz
        rcases hpv with hpv | hpv
        · exact iht _ y hy pv hpv
        · exact ihr p z hz pv hpv
      · cases h
    · cases h

/-- C28. The condition for JSON is exact: conversion panics on every map with an infinite or
NaN float. -/
theorem C28_json_panics (m : RMap Value) : Format.json.ofInternal m = none ↔ ¬ Holds jsonRep m := by
  constructor
  · intro h hm
    obtain ⟨x, hx, _⟩ := C28_json m hm
    rw [h] at hx; cases hx
  · intro h
    cases hx : Format.json.ofInternal m with
    | none => rfl
    | some x => exact absurd (json_holds_of_ofInternal.2.2 m [] x hx) h

/-- C28. The condition for TOML is exact: a map with a string "null" is written without
error but never read back as it was. -/
theorem C28_toml_null (m : RMap Value) (h : ¬ Holds tomlRep m) :
    ∃ x, Format.toml.ofInternal m = some x ∧ Format.toml.toInternal x ≠ .ok m := by
  refine ⟨_, rfl, fun hr => h ?_⟩
  have hr : Toml.toMap (Toml.ofMap Toml.ofValue m) = .ok m := hr
  rw [Toml.to_eq_trav.2.2 _ [], travMap_rdAt] at hr
  obtain ⟨hs, hl⟩ := hr
  intro pv hpv he
  obtain ⟨n, hn⟩ := List.mem_iff_getElem?.1 hpv
  have hlen := length_leaves_of_shape.2.2 _ _ [] [] hs
  have hlt : n < (leavesMap [] (tomlMap (Toml.ofMap Toml.ofValue m))).length := by
    rw [← hlen]; exact (List.getElem?_eq_some_iff.1 hn).1
  obtain ⟨⟨p, s⟩, hps⟩ : ∃ y, (leaves (tomlMap (Toml.ofMap Toml.ofValue m)))[n]? = some y :=
    ⟨_, List.getElem?_eq_getElem hlt⟩
  obtain ⟨v, hv, hR⟩ := hl n p s hps
  rw [hn] at hv
  cases hv
  have he : v = .string c!"null" := he
  -- the document has no text "null"
  have hno : (∀ t, ∀ q, ∀ ps ∈ leavesAt q (tomlDoc t), ps.2 ≠ .str c!"null") ∧
      (∀ l, ∀ q, ∀ ps ∈ leavesSeq q (tomlSeq l), ps.2 ≠ .str c!"null") ∧
      (∀ m, ∀ q, ∀ ps ∈ leavesMap q (tomlMap m), ps.2 ≠ .str c!"null") := by
    apply Toml.induct
    · intro s q ps h
      rw [tomlDoc] at h
      by_cases hs : s = c!"null"
      · rw [if_pos hs] at h; simp [leavesAt] at h
      · rw [if_neg hs] at h
        simp only [leavesAt, List.mem_singleton] at h
        subst h
        intro e; injection e with e; exact hs e
    · intro s q ps h; simp only [tomlDoc, leavesAt, List.mem_singleton] at h; subst h; nofun
    · intro s q ps h; simp only [tomlDoc, leavesAt, List.mem_singleton] at h; subst h; nofun
    · intro s q ps h; simp only [tomlDoc, leavesAt, List.mem_singleton] at h; subst h; nofun
    · intro s q ps h; simp only [tomlDoc, leavesAt, List.mem_singleton] at h; subst h; nofun
    · intro l ih q ps h; exact ih q ps (by simpa only [tomlDoc, leavesAt] using h)
    · intro l ih q ps h; exact ih q ps (by simpa only [tomlDoc, leavesAt] using h)
    · intro q ps h; simp [tomlSeq, leavesSeq] at h
    · intro t r iht ihr q ps h
      simp only [tomlSeq, leavesSeq, List.mem_append] at h
      rcases h with h | h
      · exact iht q ps h
      · exact ihr q ps h
    · intro q ps h; simp [tomlMap, leavesMap] at h
    · intro k t r iht ihr q ps h
      simp only [tomlMap, leavesMap, List.mem_append] at h
      rcases h with h | h
      · exact iht _ ps h
      · exact ihr q ps h
  -- a datetime is never written, so the scalar is a string
  have hdate : (∀ t : Tree Value, ∀ q, ∀ ps ∈ leavesAt q (tomlDoc (Toml.ofTree Toml.ofValue t)), ∀ d, ps.2 ≠ .date d) ∧
      (∀ l : List (Tree Value), ∀ q, ∀ ps ∈ leavesSeq q (tomlSeq (Toml.ofSeq Toml.ofValue l)), ∀ d, ps.2 ≠ .date d) ∧
      (∀ m : RMap Value, ∀ q, ∀ ps ∈ leavesMap q (tomlMap (Toml.ofMap Toml.ofValue m)), ∀ d, ps.2 ≠ .date d) := by
    apply Tree.induct
    · intro l ih q ps h; exact ih q ps (by simpa only [Toml.ofTree, tomlDoc, leavesAt] using h)
    · intro l ih q ps h; exact ih q ps (by simpa only [Toml.ofTree, tomlDoc, leavesAt] using h)
    · intro q ps h
      simp only [Toml.ofTree, tomlDoc, tomlNull, if_true, leavesAt, List.not_mem_nil] at h
    · intro v q ps h d
      cases v with
      | string s =>
        simp only [Toml.ofTree, Toml.ofValue, tomlDoc] at h
        by_cases hs : s = c!"null"
        · rw [if_pos hs] at h; simp [leavesAt] at h
        · rw [if_neg hs] at h; simp only [leavesAt, List.mem_singleton] at h; subst h; nofun
      | _ => simp only [Toml.ofTree, Toml.ofValue, tomlDoc, leavesAt, List.mem_singleton] at h; subst h; nofun
    · intro q ps h; simp [Toml.ofSeq, tomlSeq, leavesSeq] at h
    · intro t r iht ihr q ps h
      simp only [Toml.ofSeq, tomlSeq, leavesSeq, List.mem_append] at h
      rcases h with h | h
      · exact iht q ps h
      · exact ihr q ps h
    · intro q ps h; simp [Toml.ofMap, tomlMap, leavesMap] at h
    · intro k t r iht ihr q ps h
      simp only [Toml.ofMap, tomlMap, leavesMap, List.mem_append] at h
      rcases h with h | h
      · exact iht _ ps h
      · exact ihr q ps h
  have hmem := List.mem_of_getElem? hps
  cases s with
  | str t =>
    simp only [Reads] at hR
    rw [he] at hR
    injection hR with hR
    exact hno.2.2 _ [] _ hmem (by rw [hR])
  | date t => exact hdate.2.2 m [] _ hmem t rfl
  | int i => obtain ⟨n, hn, _⟩ := hR; rw [he] at hn; cases hn
  | float t => simp only [Reads] at hR; rw [he] at hR; cases hR
  | bool t => simp only [Reads] at hR; rw [he] at hR; cases hR

example : Holds jsonRep sampleMap ∧ Holds tomlRep sampleMap := by
  have hl : leaves sampleMap = [([c!"user"], Value.string c!"root"), ([c!"db", c!"port_plain"], .integer 5432),
      ([c!"db", c!"pw"], .string c!"x"), ([c!"l"], .boolean true), ([c!"l"], .float c!"1.5"),
      ([c!"l", c!"a_plain"], .integer (-1))] := rfl
  unfold Holds
  rw [hl]
  refine ⟨?_, by unfold tomlRep; decide⟩
  simp only [List.mem_cons, List.not_mem_nil, or_false, forall_eq_or_imp, forall_eq, jsonRep]
  decide

/-- A value the JSON conversion panics on, and one TOML reads back as null. -/
example : Format.json.ofInternal [(c!"a", .leaf (.float c!"NaN"))] = none ∧
    ¬ Holds tomlRep [(c!"a", .leaf (.string c!"null"))] := by
  refine ⟨by decide +kernel, fun h => h ([c!"a"], .string c!"null") (by simp [leaves, leavesMap, leavesAt]) rfl⟩

/-! ## C29 -/

/-- C29. An encrypted map made under a setting converts to JSON and is read back with that
setting as the same map. -/
theorem C29_json (C : Cipher) (hC : ',' ∉ C.name) (rx : RegexMatch) (cfg : Option PartialEncryption)
    (m : RMap EncLeaf) (h : EncHolds C rx cfg jsonRep m) :
    ∃ x, Format.json.encOfInternal C m = some x ∧
      Format.json.encToInternal C rx (Resolved.ofConfig cfg) x = .ok m :=
  Format.json_lawful.enc_round_trip C hC rx cfg m h

/-- C29 for YAML. -/
theorem C29_yaml (C : Cipher) (hC : ',' ∉ C.name) (rx : RegexMatch) (cfg : Option PartialEncryption)
    (m : RMap EncLeaf) (h : EncHolds C rx cfg yamlRep m) :
    ∃ x, Format.yaml.encOfInternal C m = some x ∧
      Format.yaml.encToInternal C rx (Resolved.ofConfig cfg) x = .ok m :=
  Format.yaml_lawful.enc_round_trip C hC rx cfg m h

/-- C29 for TOML. -/
theorem C29_toml (C : Cipher) (hC : ',' ∉ C.name) (rx : RegexMatch) (cfg : Option PartialEncryption)
    (m : RMap EncLeaf) (h : EncHolds C rx cfg tomlRep m) :
    ∃ x, Format.toml.encOfInternal C m = some x ∧
      Format.toml.encToInternal C rx (Resolved.ofConfig cfg) x = .ok m :=
  Format.toml_lawful.enc_round_trip C hC rx cfg m h

/-- C29. The JSON document written for an encrypted map has its keys, nulls and nesting, the texts of
the encrypted values and the scalars of the plain ones. -/
theorem C29_json_written {C : Cipher} {m : RMap EncLeaf} {x : Format.json.Map} (h : Format.json.encOfInternal C m = some x) :
    WrittenAs (encScalar C) m (jsonMap x) :=
  have := (json_written fun _ _ h => jsonScalar_encOfInternal h).2.2 m x h
  ⟨this.1, this.2 []⟩

/-- C29. The same for YAML, without any tags. -/
theorem C29_yaml_written {C : Cipher} {m : RMap EncLeaf} {x : Format.yaml.Map} (h : Format.yaml.encOfInternal C m = some x) :
    UntaggedMap x ∧ ∃ d, yamlMap x = some d ∧ WrittenAs (encScalar C) m d := by
  cases h
  obtain ⟨d, h1, h2, h3, h4⟩ := (yaml_written (yaml_ofEncLeaf C)).2.2 m
  exact ⟨h2, d, h1, h3, h4 []⟩

/-- C29. The same for TOML. -/
theorem C29_toml_written {C : Cipher} {m : RMap EncLeaf} (hm : ∀ p v, (p, EncLeaf.escaped v) ∈ leaves m → tomlRep v)
    {x : Format.toml.Map} (h : Format.toml.encOfInternal C m = some x) : WrittenAs (encScalar C) m (tomlMap x) := by
  cases h
  have := toml_written.2.2 m [] fun pv hp => toml_ofEncLeaf (C := C) fun v hv => hm pv.1 v (by rw [← hv]; exact hp)
  exact ⟨this.1, this.2⟩

example : ∃ x d, Format.yaml.encOfInternal Toy.cipher
      [(c!"a", .leaf (.encrypted ⟨[1], [2, 3], [4, 5], .integer⟩)), (c!"b", .leaf (.escaped (.boolean true)))] = some x ∧
    yamlMap x = some d ∧ leaves d =
      [([c!"a"], .str c!"ENC[AES256_GCM,data:AQ==,iv:BAU=,tag:AgM=,type:int]"), ([c!"b"], .bool true)] := by
  obtain ⟨_, d, h1, h2⟩ := C29_yaml_written (C := Toy.cipher) (m := [(c!"a", .leaf (.encrypted ⟨[1], [2, 3], [4, 5], .integer⟩)),
    (c!"b", .leaf (.escaped (.boolean true)))]) rfl
  refine ⟨_, d, rfl, h1, h2.2.trans ?_⟩
  have : encText Toy.cipher ⟨[1], [2, 3], [4, 5], .integer⟩ =
    c!"ENC[AES256_GCM,data:AQ==,iv:BAU=,tag:AgM=,type:int]" := by decide +kernel
  rw [← this]
  rfl

/-- The result of encrypting a map without ':' in its keys meets the condition of C29. -/
theorem encHolds_of_encrypt {env : EncEnv} (hC : env.C.Lawful) (ht : ∀ i, (env.tape i).length = env.C.nonceSize)
    (hs : ∀ s, env.saved = some s → ∀ p v n, s.get p v = some n → n.length = env.C.nonceSize)
    {cfg : Option PartialEncryption} {m : RMap Value} (hk : cfg ≠ none → KeysAgree cfg m) {rep : Value → Prop} (hm : Holds rep m)
    {i j : Nat} {m' : RMap EncLeaf} (h : RMap.encrypt env cfg m i = .ok (m', j)) :
    EncHolds env.C env.rx cfg rep m' := by
  obtain ⟨_, h2⟩ := RMap.encrypt_ok_iff.1 h
  have key : ∀ p l, (p, l) ∈ leaves m' → ∃ v s1 s2, (p, v) ∈ leaves m ∧ (Plain env.rx cfg (p.map lastPart) ↔ Plain env.rx cfg p) ∧
      env.leafAt cfg p v s1 = .ok (l, s2) := by
    intro p l hpl
    obtain ⟨n, hn⟩ := List.mem_iff_getElem?.1 hpl
    obtain ⟨v, s1, s2, hv, hf⟩ := travList_getElem' h2 hn
    have hmem := List.mem_of_getElem? hv
    refine ⟨v, s1, s2, hmem, ?_, hf⟩
    exact plain_lastPart hk hmem
  constructor
  · intro p e hpl
    obtain ⟨v, s1, s2, hmem, hp, hf⟩ := key p _ hpl
    rw [EncEnv.leafAt_ok, hp] at hf
    rcases hf with ⟨_, h1, _⟩ | ⟨h1, e', h3, he, _⟩
    · cases h1
    · cases h3
      refine ⟨h1, (Value.sized_of_encrypt hC ?_ he).1⟩
      unfold EncEnv.nonceFor
      cases hsv : env.saved with
      | none => exact ht _
      | some s =>
        simp only [Option.bind_some]
        cases hg : s.get (pathText p) v with
        | none => exact ht _
        | some n => exact hs s hsv _ _ _ hg
  · intro p v hpl
    obtain ⟨v', s1, s2, hmem, hp, hf⟩ := key p _ hpl
    rw [EncEnv.leafAt_ok, hp] at hf
    rcases hf with ⟨h1, h3, _⟩ | ⟨_, e', h3, _⟩
    · cases h3; exact ⟨h1, hm _ hmem⟩
    · cases h3

/-- A map encrypted under a setting meets the condition. -/
example : ∃ m' j, RMap.encrypt (sampleEnv none) sampleCfg sampleMap 0 = .ok (m', j) ∧
    EncHolds Toy.cipher (sampleEnv none).rx sampleCfg yamlRep m' := by
  obtain ⟨m', j, h⟩ := C01_map_encrypt_total (sampleEnv none) Toy.cipher_total sampleCfg sampleMap 0
  exact ⟨m', j, h, encHolds_of_encrypt (env := sampleEnv none) Toy.cipher_lawful (fun _ => rfl)
    (fun s hs => by cases hs) (fun _ => .inl (by unfold NoColon; decide)) (fun _ _ => trivial) h⟩

/-! ## C30 -/

/-- C30. A JSON document is read as a map exactly when each scalar of the document is read as
the value it is: same keys, order, nesting and nulls, integers unchanged. -/
theorem C30_json_read (x : Format.json.Map) (m : RMap Value) :
    Format.json.toInternal x = .ok m ↔ ReadAs (jsonMap x) m := by
  rw [← travMap_rdAt, ← Json.to_eq_trav.2.2 x []]; rfl

/-- C30. The same for YAML; documents with a key that is not a string are rejected. -/
theorem C30_yaml_read (x : Format.yaml.Map) (m : RMap Value) :
    Format.yaml.toInternal x = .ok m ↔ ∃ d, yamlMap x = some d ∧ ReadAs d m := by
  have h := Yaml.to_eq_trav.2.2 x []
  show Yaml.toMap x = .ok m ↔ _
  revert h
  cases yamlMap x with
  | none => rintro ⟨e, he⟩; simp [he]
  | some d =>
    intro h
    simp only [IsRead] at h
    rw [h, travMap_rdAt]
    simp

/-- C30. The same for TOML. -/
theorem C30_toml_read (x : Format.toml.Map) (m : RMap Value) :
    Format.toml.toInternal x = .ok m ↔ ReadAs (tomlMap x) m := by
  rw [← travMap_rdAt, ← Toml.to_eq_trav.2.2 x []]; rfl

/-- C30. Reading a JSON document fails only because of an integer that does not fit, which is
named in the error. -/
theorem C30_json_error (x : Format.json.Map) (e : FormatError) (h : Format.json.toInternal x = .error e) :
    ∃ p n, (p, Scalar.int n) ∈ leaves (jsonMap x) ∧ ¬ (-2 ^ 63 ≤ n ∧ n < 2 ^ 63) ∧
      e = .integerOutOfRange (UInt64.ofNat n.toNat) := by
  have h : Json.toMap x = .error e := h
  rw [Json.to_eq_trav.2.2 x [], dropUnit_error, travMap_error_iff] at h
  obtain ⟨⟨p, s⟩, h1, h2⟩ := travList_error h
  simp only [rdAt] at h2
  cases s with
  | int n =>
    refine ⟨p, n, h1, ?_⟩
    simp only [rd] at h2
    by_cases hn : -2 ^ 63 ≤ n ∧ n < 2 ^ 63
    · rw [if_pos hn] at h2; cases h2
    · rw [if_neg hn] at h2; cases h2; exact ⟨hn, rfl⟩
  | _ => simp only [rd] at h2; cases h2

/-- C30. An encrypted JSON document is read exactly when the scalars at plaintext paths are
read as they are and every other scalar is the text of an encrypted value. -/
theorem C30_json_enc_read (C : Cipher) (rx : RegexMatch) (cfg : Option PartialEncryption)
    (x : Format.json.Map) (m : RMap EncLeaf) :
    Format.json.encToInternal C rx (Resolved.ofConfig cfg) x = .ok m ↔ EncReadAs C rx cfg (jsonMap x) m := by
  rw [← travMap_rdEncAt, ← (Json.enc_eq_trav C rx cfg).2.2 x []]; rfl

/-- C30 for encrypted YAML documents. -/
theorem C30_yaml_enc_read (C : Cipher) (rx : RegexMatch) (cfg : Option PartialEncryption)
    (x : Format.yaml.Map) (m : RMap EncLeaf) :
    Format.yaml.encToInternal C rx (Resolved.ofConfig cfg) x = .ok m ↔
      ∃ d, yamlMap x = some d ∧ EncReadAs C rx cfg d m := by
  have h := (Yaml.enc_eq_trav C rx cfg).2.2 x []
  show Yaml.encToMap C rx ((Resolved.ofConfig cfg).steps rx []) x = .ok m ↔ _
  revert h
  cases yamlMap x with
  | none => rintro ⟨e, he⟩; simp [he]
  | some d =>
    intro h
    simp only [IsRead] at h
    rw [h, travMap_rdEncAt]
    simp

/-- C30 for encrypted TOML documents. -/
theorem C30_toml_enc_read (C : Cipher) (rx : RegexMatch) (cfg : Option PartialEncryption)
    (x : Format.toml.Map) (m : RMap EncLeaf) :
    Format.toml.encToInternal C rx (Resolved.ofConfig cfg) x = .ok m ↔ EncReadAs C rx cfg (tomlMap x) m := by
  rw [← travMap_rdEncAt, ← (Toml.enc_eq_trav C rx cfg).2.2 x []]; rfl

/-- Integers at the ends of the range are read, one above is refused. -/
example :
    Format.json.toInternal [(c!"a", .leaf (.num (.posInt 9223372036854775807))),
      (c!"b", .seq [.leaf (.num (.negInt (-9223372036854775808))), .null])] =
      .ok [(c!"a", .leaf (.integer 9223372036854775807)),
        (c!"b", .seq [.leaf (.integer (-9223372036854775808)), .null])] ∧
    Format.json.toInternal [(c!"a", .leaf (.num (.posInt 9223372036854775808)))] =
      .error (.integerOutOfRange 9223372036854775808) := ⟨rfl, rfl⟩

end Rops.Props
