import Verif.Lemmas.Halts
import Verif.Props.Crashes
import Verif.Props.Records
/-!
# C63: exactly which metadata and configurations crash the program
-/

namespace Rops.Props
open Spec

/-- **C63.** Reading metadata panics exactly because of an overlong MAC before which all is fine, or
because of a bad ARN before which all is fine. -/
theorem C63_metadata_iff {O : DocOps} (hA : O.arn.Lawful) {C : Cipher} (hC : C.Lawful) (d : RMap JsonScalar) :
    metadataHalt O C d = some .panic ↔ MetadataPanics O C d := metadata_panic_iff hA hC

/-- An overlong MAC after a good date and before a bad flag. -/
example : MetadataPanics Toy.docOps Toy.cipher (Toy.macMetadata Toy.overlong ++ [(c!"mac_only_encrypted", .leaf (.str c!"x"))]) :=
  (C63_metadata_iff Toy.arns_lawful Toy.cipher_lawful _).1 (by decide +kernel)

/-- The second unit has a bad ARN. -/
example : MetadataPanics Toy.docOps Toy.cipher (Toy.arnMetadata Toy.badArn) :=
  (C63_metadata_iff Toy.arns_lawful Toy.cipher_lawful _).1 (by decide +kernel)

/-- **C63.** Reading metadata fails otherwise exactly if it is not the metadata of any file. -/
theorem C63_metadata_error_iff {O : DocOps} (hA : O.arn.Lawful) {C : Cipher} (hC : C.Lawful) (d : RMap JsonScalar) :
    metadataHalt O C d = some .error ↔
      (¬ ∃ md, DescribesMetadata O (fun s => (EncValue.parse C s).toOption) d md) ∧ ¬ MetadataPanics O C d := by
  rw [← metadata_panic_iff hA hC]
  have h := metadata_agrees O C d
  rw [Option.isSome_iff_exists] at h
  simp only [metadataDoc_iff] at h
  rw [← h]
  cases metadataHalt O C d with
  | none => simp
  | some s => cases s <;> simp

/-- After a bad date the MAC is not looked at. -/
example : ¬ MetadataPanics Toy.docOps Toy.cipher ((c!"lastmodified", .null) :: Toy.macMetadata Toy.overlong) :=
  ((C63_metadata_error_iff Toy.arns_lawful Toy.cipher_lawful _).1 (by decide +kernel)).2

/-- **C63.** The metadata of a JSON document that decides about panics is the object under its
first key "sops". -/
theorem C63_json_first (d : List (Str × Json)) (md : RMap JsonScalar) : DocFormat.json.firstSops d = some md ↔
    ∃ a b, d = a ++ (c!"sops", .map md) :: b ∧ ∀ e ∈ a, e.1 ≠ c!"sops" := by
  show Json.firstSops d = _ ↔ _
  unfold Json.firstSops
  constructor
  · intro h
    split at h
    · rename_i t ht
      cases h
      exact firstEntry_iff.1 ht
    · cases h
  · intro h
    have hg : IndexMap.get d sopsKey = some (.map md) := firstEntry_iff.2 h
    rw [hg]

example : DocFormat.json.firstSops [(c!"a", .null), (c!"sops", .map [(c!"mac", .null)]), (c!"sops", .null)] =
    some [(c!"mac", .null)] :=
  (C63_json_first _ _).2 ⟨[(c!"a", .null)], _, rfl, by simp⟩

/-- **C63.** The same for TOML. -/
theorem C63_toml_first (d : List (Str × Toml)) (md : RMap JsonScalar) : DocFormat.toml.firstSops d = some md ↔
    ∃ a t b, d = a ++ (c!"sops", .table t) :: b ∧ (∀ e ∈ a, e.1 ≠ c!"sops") ∧ SeenTomlMap t md := by
  show Toml.firstSops d = _ ↔ _
  unfold Toml.firstSops
  constructor
  · intro h
    split at h
    · rename_i t ht
      cases h
      obtain ⟨a, b, h1, h2⟩ := firstEntry_iff.1 ht
      exact ⟨a, t, b, h1, h2, (seenTomlMap_iff t _).1 rfl⟩
    · cases h
  · rintro ⟨a, t, b, h1, h2, h3⟩
    have hg : IndexMap.get d sopsKey = some (.table t) := firstEntry_iff.2 ⟨a, b, h1, h2⟩
    rw [hg, ← (seenTomlMap_iff t md).2 h3]

example : DocFormat.toml.firstSops [(c!"a", .int 1), (c!"sops", .table [(c!"mac", .str c!"m")]), (c!"sops", .int 2)] =
    some [(c!"mac", .leaf (.str c!"m"))] :=
  (C63_toml_first _ _).2 ⟨[(c!"a", .int 1)], _, _, rfl, by simp, .cons (.str _) .nil⟩

/-- **C63.** The same for YAML. -/
theorem C63_yaml_first (d : List (Yaml × Yaml)) (md : RMap JsonScalar) : DocFormat.yaml.firstSops d = some md ↔
    ∃ a t b, d = a ++ (.str c!"sops", .map t) :: b ∧ (∀ e ∈ a, e.1 ≠ .str c!"sops") ∧ SeenYamlMap t md := by
  have hp : ∀ y : Yaml, y.isSops = true ↔ y = .str c!"sops" := by
    intro y
    cases y <;> simp [Yaml.isSops, sopsKey]
  show Yaml.firstSops d = _ ↔ _
  unfold Yaml.firstSops
  constructor
  · intro h
    split at h
    · rename_i k t ht
      obtain ⟨h1, a, b, h2, h3⟩ := List.find?_eq_some_iff_append.1 ht
      have hk := (hp k).1 h1
      subst hk
      exact ⟨a, t, b, h2, (fun e he hk => by have := h3 e he; rw [(hp _).2 hk] at this; cases this), (seenYamlMap_iff t _).1 h⟩
    · cases h
  · rintro ⟨a, t, b, h1, h2, h3⟩
    have : d.find? (fun e => e.1.isSops) = some (.str c!"sops", .map t) :=
      List.find?_eq_some_iff_append.2 ⟨rfl, a, b, h1, fun e he => by
        cases hs : e.1.isSops with
        | false => rfl
        | true => exact absurd ((hp _).1 hs) (h2 e he)⟩
    rw [this]
    exact (seenYamlMap_iff t md).2 h3

example : DocFormat.yaml.firstSops [(.null, .null), (.str c!"sops", .map [(.null, .null), (.str c!"mac", .bool true)])] =
    some [(c!"mac", .leaf (.bool true))] :=
  (C63_yaml_first _ _).2 ⟨[(.null, .null)], _, _, rfl, by simp, .other trivial .null (.text (.bool _) .nil)⟩

/-- **C63.** A text panics when it is read as an encrypted file exactly if it is the text of a
document whose first metadata does. -/
theorem C63_text_iff (P : Proc) (hA : P.O.arn.Lawful) (hC : P.env.C.Lawful) (x : Fmt) (s : Str) :
    EncFile.textPanics (P.T x) P.O P.env.C s = true ↔
      ∃ d md, (P.T x).parse s = some d ∧ x.doc.firstSops d = some md ∧ MetadataPanics P.O P.env.C md := by
  unfold EncFile.textPanics
  constructor
  · intro h
    split at h
    · rename_i d hd
      unfold EncFile.docPanics at h
      split at h
      · rename_i md hm
        exact ⟨d, md, hd, hm, (metadata_panic_iff hA hC).1 (beq_iff_eq.1 h)⟩
      · cases h
    · cases h
  · rintro ⟨d, md, hd, hm, h⟩
    rw [hd]
    simp only [EncFile.docPanics, hm]
    exact beq_iff_eq.2 ((metadata_panic_iff hA hC).2 h)

example (s : Str) (hs : s = Toy.mapText [(c!"a", .null), (c!"sops", .map (Toy.arnMetadata Toy.badArn))]) :
    ∃ d md, Toy.jsonText.parse s = some d ∧ Json.firstSops d = some md ∧ MetadataPanics Toy.docOps Toy.cipher md :=
  have h : EncFile.textPanics Toy.jsonText Toy.docOps Toy.cipher s = true := by subst hs; decide +kernel
  (C63_text_iff (Toy.proc Toy.rule [] []) Toy.arns_lawful Toy.cipher_lawful .json s).1 h

/-- **C63.** Reading the text of a configuration panics exactly because of a bad ARN in a rule
before which all is fine. -/
theorem C63_config_iff (P : Proc) (hA : P.O.arn.Lawful) (s : Str) : Config.textPanics (P.T .toml) P.O s = true ↔
    ∃ d v, (P.T .toml).parse s = some d ∧ SeenTomlMap d v ∧ ConfigPanics P.O v := by
  unfold Config.textPanics
  constructor
  · intro h
    split at h
    · rename_i d hd
      exact ⟨d, _, hd, (seenTomlMap_iff d _).1 rfl, (config_panic_iff hA).1 (beq_iff_eq.1 h)⟩
    · cases h
  · rintro ⟨d, v, hd, hv, h⟩
    rw [hd]
    simp only
    rw [(seenTomlMap_iff d v).2 hv]
    exact beq_iff_eq.2 ((config_panic_iff hA).2 h)

example : ∃ d v, (Toy.texts Toy.badRule .toml).parse c!"config" = some d ∧ SeenTomlMap d v ∧ ConfigPanics Toy.docOps v :=
  (C63_config_iff (Toy.proc Toy.badRule [] []) Toy.arns_lawful c!"config").1
    (show Config.textPanics (Toy.texts Toy.badRule .toml) Toy.docOps c!"config" = true by decide +kernel)

/-- The same with a rule and keys that are arrays. -/
example : ConfigPanics Toy.docOps [(c!"creation_rules", .seq [.seq [isText c!"a", .leaf (.bool true),
    .map [(c!"encrypted_suffix", isText c!"_s")], .seq [.seq [isText c!"pk1"], .seq [isText (c!"p." ++ Toy.badArn)]]]])] :=
  (config_panic_iff Toy.arns_lawful).1 (by decide +kernel)

/-- **C63.** So every command that reads an encrypted file crashes, without any effect, if it finds
a configuration and the file is like this. -/
theorem C63_reading (P : Proc) (hA : P.O.arn.Lawful) (hC : P.env.C.Lawful) (c : Command) (i : Nat)
    (hc : c.accepted = true) (hne : ∀ l, c ≠ .encrypt l) (config : Config) (hcfg : P.retrieveConfig c.configPath = .ok config)
    (x : Fmt) (hx : getFormat (opens c) (givenFormat c) = .ok x) (s : Str) (hs : InputText P (opens c) s)
    (d : x.doc.F.Map) (md : RMap JsonScalar) (hd : (P.T x).parse s = some d) (hm : x.doc.firstSops d = some md)
    (hp : MetadataPanics P.O P.env.C md) : P.run c i = ([], .error .panic) :=
  C63_input_crash P c i hc config hcfg hne x hx s hs ((C63_text_iff P hA hC x s).2 ⟨d, md, hd, hm, hp⟩)

example (ed : List Attempt) :
    (Toy.proc Toy.rule (Toy.mapText [(c!"a", .null), (c!"sops", .map (Toy.macMetadata Toy.overlong))]) ed).run
      (.edit Toy.input) 0 = ([], .error .panic) := by
  obtain ⟨d, md, h1, h2, h3⟩ := (C63_text_iff (Toy.proc Toy.rule [] []) Toy.arns_lawful Toy.cipher_lawful .json
    (Toy.mapText [(c!"a", .null), (c!"sops", .map (Toy.macMetadata Toy.overlong))])).1
    (show EncFile.textPanics Toy.jsonText Toy.docOps Toy.cipher
      (Toy.mapText [(c!"a", .null), (c!"sops", .map (Toy.macMetadata Toy.overlong))]) = true by decide +kernel)
  exact C63_reading _ Toy.arns_lawful Toy.cipher_lawful _ 0 rfl nofun [Toy.creationRule] (Toy.proc_config _ _) .json
    (by decide +kernel) _ (Toy.proc_input _ _ _) d md h1 h2 h3

end Rops.Props
