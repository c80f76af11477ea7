import Verif.Lemmas.Verbatim
import Verif.Lemmas.Format
import Verif.Lemmas.File
import Verif.Model.AesGcm
import Verif.Model.Floats
import Verif.Model.TomlDates
/-!
# C93: encrypted values stand in files as they are

Programs that look at files line by line (`grep`, `git diff`) find them, and none is broken over
lines or escaped.
-/

namespace Rops.Props
open Spec

/-- **C93.** In a JSON file the MAC and every encrypted value stand in one line, between double quotes,
without escapes. -/
theorem C93_json {J : JsonFloats} {C : Cipher} (hC : NameOfWords C) {f : EncFile DocFormat.json.F} {m : RMap EncLeaf}
    (hw : DocFormat.json.F.encOfInternal C m = some f.map) {e : EncValue} (he : e = f.metadata.mac ∨ ∃ p, (p, .encrypted e) ∈ leaves m) :
    Within (c!"\"" ++ (e.toText C ++ c!"\"")) (EncFile.toText J.ops C f) ∧ '\n' ∉ e.toText C := by
  have hc := encText_chars hC e
  refine ⟨?_, fun h => absurd (hc _ h) (by decide)⟩
  show Within ('"' :: (e.toText C ++ ['"'])) (Json.pretty J 0 (.map (Json.addSops f.map (f.metadata.toDoc fun e => e.toText C))))
  rw [← quote_plain hc]
  apply pretty_within
  rcases he with rfl | ⟨p, he⟩
  · exact .map (List.mem_append_right _ (List.mem_singleton.2 rfl)) (.map (mac_inTree _ _) .leaf)
  · obtain ⟨k, t, ht, hi⟩ := inMap_of m he
    obtain ⟨t', h1, h2⟩ := mapMapM_mem hw ht
    exact .map (List.mem_append_left _ h1) (inTree_mapM (f := JsonScalar.encOfInternal C) rfl hi h2)

/-- **C93.** In a TOML file the same holds. A value under the key "sops" itself is not in the file: the metadata
takes its place. -/
theorem C93_toml {S : TomlScalars} {C : Cipher} (hC : NameOfWords C) {f : EncFile DocFormat.toml.F} {m : RMap EncLeaf}
    (hw : DocFormat.toml.F.encOfInternal C m = some f.map) {e : EncValue}
    (he : e = f.metadata.mac ∨ ∃ p, (p, .encrypted e) ∈ leaves m ∧ p.head? ≠ some sopsKey) :
    Within (c!"\"" ++ (e.toText C ++ c!"\"")) (EncFile.toText S.ops C f) ∧ '\n' ∉ e.toText C := by
  have hc := encText_chars hC e
  refine ⟨?_, fun h => absurd (hc _ h) (by decide)⟩
  show Within ('"' :: (e.toText C ++ ['"'])) (Toml.render (Toml.addSops f.map (f.metadata.toDoc fun e => e.toText C)))
  rw [← basic_plain hc]
  rcases he with rfl | ⟨p, he, hp⟩
  · exact toml_within (.table (ofMap_mem (mac_inTree _ _)) (ofTree_inToml (f := Toml.ofScalar) (a := .str _) rfl .leaf)) (insert_new _ _ _)
  · obtain ⟨k, t, ht, hi, hk⟩ := inTop_of he
    have hm := ofMap_mem (f := Toml.ofEncLeaf C) ht
    have ew : Toml.ofMap (Toml.ofEncLeaf C) m = f.map := Option.some.inj hw
    rw [ew] at hm
    exact toml_within (ofTree_inToml (f := Toml.ofEncLeaf C) rfl hi) (insert_other (fun e => hp (by rw [hk, e])) hm)

theorem yaml_fileText (L : YamlLayout) (C : Cipher) (f : EncFile DocFormat.yaml.F) :
    EncFile.toText L.ops C f = L.write (Yaml.entryNodes (Yaml.addSops f.map (f.metadata.toDoc fun e => e.toText C))) := rfl

/-- **C93.** In a YAML file the MAC and every encrypted value end a line, without quotes, after a space. -/
theorem C93_yaml {C : Cipher} (hC : NameOfWords C) {f : EncFile DocFormat.yaml.F} {m : RMap EncLeaf}
    (hw : DocFormat.yaml.F.encOfInternal C m = some f.map) {e : EncValue} (he : e = f.metadata.mac ∨ ∃ p, (p, .encrypted e) ∈ leaves m) :
    Within (c!" " ++ (e.toText C ++ c!"\n")) (EncFile.toText blockLayout.ops C f) ∧ '\n' ∉ e.toText C := by
  have hc := encText_chars hC e
  refine ⟨?_, fun h => absurd (hc _ h) (by decide)⟩
  obtain ⟨r, er⟩ := encText_begins (C := C) e
  have hn := enc_node hc er
  have hp := enc_plainAllowed hc er
  rw [yaml_fileText]
  rcases he with rfl | ⟨p, he⟩
  · refine yaml_within hp ?_ (List.mem_append_right _ (List.mem_singleton.2 rfl))
    rw [Yaml.node]
    refine .map (entryNodes_mem (yamlMap_mem (mac_inTree _ _))) ?_
    exact ofTree_inNode (f := Yaml.ofScalar) (a := .str _) (by rw [Yaml.ofScalar, Yaml.node]; exact hn) .leaf
  · obtain ⟨k, t, ht, hi⟩ := inMap_of m he
    have hm := yamlMap_mem (f := Yaml.ofEncLeaf C) ht
    have ew : Yaml.ofMap (Yaml.ofEncLeaf C) m = f.map := Option.some.inj hw
    rw [ew] at hm
    exact yaml_within hp (ofTree_inNode (f := Yaml.ofEncLeaf C) (by rw [Yaml.ofEncLeaf, Yaml.node]; exact hn) hi)
      (List.mem_append_left _ hm)

theorem words_aesGcm : NameOfWords aesGcm := by unfold NameOfWords aesGcm; decide

theorem sealed_mem {C : Cipher} {rx : RegexMatch} {key : Bytes} {cfg : Option PartialEncryption} {m : RMap Value} {m' : RMap EncLeaf}
    (h : Sealed C rx key cfg m m') {p : List Str} {v : Value} (hv : (p, v) ∈ leaves m) (hp : ¬ Plain rx cfg p) :
    ∃ e, (p, .encrypted e) ∈ leaves m' ∧ Seals C key p v e := by
  have hz := h.2
  revert hv
  generalize leaves m = x at hz ⊢
  generalize leaves m' = y at hz ⊢
  induction hz with
  | nil => intro hv; cases hv
  | @cons a b l l' hr _ ih =>
    intro hv
    rcases List.mem_cons.1 hv with rfl | hv
    · obtain ⟨e1, ⟨hp', _⟩ | ⟨_, e, e2, hs⟩⟩ := hr
      · exact absurd hp' hp
      · exact ⟨e, by rw [show (p, EncLeaf.encrypted e) = b from Prod.ext e1.symm e2.symm]; exact List.mem_cons_self, hs⟩
    · obtain ⟨e, he, hs⟩ := ih hv
      exact ⟨e, List.mem_cons_of_mem _ he, hs⟩

/-- **C93.** So in the file of an encrypted document, each value that is to be encrypted has a line with the
text of its encryption: in JSON and TOML as a text between quotes, in YAML at the end of the line. -/
theorem C93_values {env : Env} (hC : NameOfWords env.C) {key : Bytes} {m : RMap Value} {m' : RMap EncLeaf} {p : List Str} {v : Value}
    (hv : (p, v) ∈ leaves m) :
    (∀ {J : JsonFloats} {f : EncFile DocFormat.json.F}, Holding env jsonRep f key m m' → ¬ Plain env.rx f.metadata.partialEncryption p →
      ∃ e, Seals env.C key p v e ∧ Within (c!"\"" ++ (e.toText env.C ++ c!"\"")) (EncFile.toText J.ops env.C f)) ∧
    (∀ {S : TomlScalars} {f : EncFile DocFormat.toml.F}, Holding env tomlRep f key m m' → ¬ Plain env.rx f.metadata.partialEncryption p →
      p.head? ≠ some sopsKey →
      ∃ e, Seals env.C key p v e ∧ Within (c!"\"" ++ (e.toText env.C ++ c!"\"")) (EncFile.toText S.ops env.C f)) ∧
    (∀ {f : EncFile DocFormat.yaml.F}, Holding env yamlRep f key m m' → ¬ Plain env.rx f.metadata.partialEncryption p →
      ∃ e, Seals env.C key p v e ∧ Within (c!" " ++ (e.toText env.C ++ c!"\n")) (EncFile.toText blockLayout.ops env.C f)) := by
  refine ⟨fun {J f} h hp => ?_, fun {S f} h hp hs => ?_, fun {f} h hp => ?_⟩
  · obtain ⟨e, he, hs⟩ := sealed_mem h.sealed hv hp
    exact ⟨e, hs, (C93_json hC h.written (.inr ⟨p, he⟩)).1⟩
  · obtain ⟨e, he, hs'⟩ := sealed_mem h.sealed hv hp
    exact ⟨e, hs', (C93_toml hC h.written (.inr ⟨p, he, hs⟩)).1⟩
  · obtain ⟨e, he, hs⟩ := sealed_mem h.sealed hv hp
    exact ⟨e, hs, (C93_yaml hC h.written (.inr ⟨p, he⟩)).1⟩

/-- An encrypted value for the examples. -/
def verbatimValue : EncValue := { data := [1, 2, 250], tag := [4, 5], nonce := [255, 254, 253], variant := .integer }

/-- A map with it in a sequence of maps, beside one in plaintext. -/
def verbatimMap : RMap EncLeaf :=
  [(c!"a", .seq [.map [(c!"b", .leaf (.encrypted verbatimValue))], .null]), (c!"c_plain", .leaf (.escaped (.string c!"x: \"y\"\nz")))]

/-- The rest of its files. -/
def verbatimMetadata : Metadata EncValue :=
  { integration := .empty, lastModified := ⟨2024, 1, 2, 3, 4, 5, 0⟩, mac := { verbatimValue with variant := .string }, partialEncryption := none,
    macOnlyEncrypted := none }

/-- How the value is written. -/
def verbatimText : Str := c!"ENC[AES256_GCM,data:AQL6,iv://79,tag:BAU=,type:int]"

example : verbatimValue.toText aesGcm = verbatimText ∧ leaves verbatimMap = [([c!"a", c!"b"], .encrypted verbatimValue), ([c!"c_plain"], .escaped (.string c!"x: \"y\"\nz"))] :=
  ⟨by decide +kernel, rfl⟩

/-- What is written in YAML. -/
def verbatimYaml : Str :=
  c!"a:\n- b: ENC[AES256_GCM,data:AQL6,iv://79,tag:BAU=,type:int]\n- null\nc_plain: |-\n  x: \"y\"\n  z\nsops:\n  lastmodified: 2024-01-02T03:04:05Z\n  mac: ENC[AES256_GCM,data:AQL6,iv://79,tag:BAU=,type:str]\n"

example : EncFile.toText blockLayout.ops aesGcm { map := Yaml.ofMap (Yaml.ofEncLeaf aesGcm) verbatimMap, metadata := verbatimMetadata } = verbatimYaml := by
  decide +kernel

example : Within (c!" " ++ (verbatimValue.toText aesGcm ++ c!"\n"))
    (EncFile.toText blockLayout.ops aesGcm { map := Yaml.ofMap (Yaml.ofEncLeaf aesGcm) verbatimMap, metadata := verbatimMetadata }) :=
  (C93_yaml (m := verbatimMap) words_aesGcm rfl (.inr ⟨[c!"a", c!"b"], List.mem_cons_self⟩)).1

example : Within (c!"\"" ++ (verbatimValue.toText aesGcm ++ c!"\""))
    (EncFile.toText rustToml.ops aesGcm { map := Toml.ofMap (Toml.ofEncLeaf aesGcm) verbatimMap, metadata := verbatimMetadata }) :=
  (C93_toml (m := verbatimMap) words_aesGcm rfl (.inr ⟨[c!"a", c!"b"], List.mem_cons_self, by decide⟩)).1

example : Within (c!"\"" ++ (verbatimValue.toText aesGcm ++ c!"\""))
    (EncFile.toText serdeFloats.ops aesGcm { map := (DocFormat.json.F.encOfInternal aesGcm verbatimMap).get (by decide +kernel), metadata := verbatimMetadata }) :=
  (C93_json (m := verbatimMap) words_aesGcm (by simp) (.inr ⟨[c!"a", c!"b"], List.mem_cons_self⟩)).1

-- texts of values in plaintext are not always in the file as they are
example : ¬ Within c!"x: \"y\"\nz" verbatimYaml := by
  rintro ⟨p, q, h⟩
  have : ∀ n ∈ List.range 200, (verbatimYaml.drop n).take 8 ≠ c!"x: \"y\"\nz" := by decide +kernel
  have hl : p.length < 200 := by
    have := congrArg List.length h
    have e : verbatimYaml.length < 200 := by decide +kernel
    simp only [List.length_append] at this
    omega
  refine this p.length (List.mem_range.2 hl) ?_
  rw [h, List.drop_left]
  rfl

end Rops.Props
