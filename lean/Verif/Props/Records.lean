import Verif.Lemmas.Records
import Verif.Lemmas.ToyCli
import Verif.Props.Commands
/-!
# C59 and C60: which documents are configurations and metadata
-/

namespace Rops.Props

open Spec

/-! ## C59 -/

/-- **C59.** A text is the configuration `c` exactly if it is the text of a TOML document with
the entry "creation_rules", a sequence of tables or arrays, each of which describes the rule of `c`
at its place. -/
theorem C59_config_iff (T : TextOps .toml) (O : DocOps) (s : Str) (c : Config) : Config.ofText T O s = some c ↔
    ∃ d v, T.parse s = some d ∧ SeenTomlMap d v ∧ DescribesConfig O v c := by
  unfold Config.ofText
  constructor
  · intro h
    split at h
    · rename_i d hd; exact ⟨d, _, hd, (seenTomlMap_iff d _).1 rfl, configDoc_iff.1 h⟩
    · cases h
  · rintro ⟨d, v, hd, hv, h⟩
    rw [hd]; exact configDoc_iff.2 (by rw [(seenTomlMap_iff d v).2 hv]; exact h)

/-- **C59.** A command finds the configuration `c` in a file exactly if the file has the text of
such a document. -/
theorem C59_file_iff (P : Proc) (p : Str) (c : Config) : P.readConfig p = .ok c ↔
    ∃ b s d v, P.file p = .data b ∧ utf8? b = some s ∧ (P.T .toml).parse s = some d ∧ SeenTomlMap d v ∧
      DescribesConfig P.O v c := by
  rw [C42_read]
  constructor
  · rintro ⟨b, s, h1, h2, h3⟩
    obtain ⟨d, v, h4⟩ := (C59_config_iff _ _ _ _).1 h3
    exact ⟨b, s, d, v, h1, h2, h4⟩
  · rintro ⟨b, s, d, v, h1, h2, h4⟩
    exact ⟨b, s, h1, h2, (C59_config_iff _ _ _ _).2 ⟨d, v, h4⟩⟩

/-- Without rules there is no configuration. -/
theorem C59_rules_required (O : DocOps) (d : RMap JsonScalar) (h : Absent d c!"creation_rules") (c : Config) :
    ¬ DescribesConfig O d c := by
  rintro ⟨ds, hd, -⟩
  rw [← docField_some_iff, docField_none_iff.2 h] at hd
  cases hd

theorem zip_exists {α β : Type} {R : α → β → Prop} {l : List α} {r : List β} (h : Zip R l r) {x : α} (hx : x ∈ l) : ∃ y ∈ r, R x y := by
  induction h with
  | nil => cases hx
  | cons h1 _ ih =>
    rcases List.mem_cons.1 hx with rfl | hx
    · exact ⟨_, List.mem_cons_self, h1⟩
    · obtain ⟨y, hy, hr⟩ := ih hx
      exact ⟨y, List.mem_cons_of_mem _ hy, hr⟩

theorem entry_unique {d : RMap JsonScalar} {k : Str} {v w : Json} (h : Spec.Entry d k v) (h' : Spec.Entry d k w) : v = w := by
  have := (docField_some_iff.2 h).symm.trans (docField_some_iff.2 h')
  cases this; rfl

/-- **C59.** One rule without a path, or with a path that is not a valid pattern, makes the whole
configuration invalid, whatever the other rules. By `C42_malformed` no command then works, also
for files the rule is not about. -/
theorem C59_one_bad_rule (O : DocOps) (d : RMap JsonScalar) (vs : List Json)
    (hd : Spec.Entry d c!"creation_rules" (.seq vs)) (r : RMap JsonScalar) (hr : .map r ∈ vs)
    (hbad : Absent r c!"path_regex" ∨ ∃ s, Spec.Entry r c!"path_regex" (isText s) ∧ O.regexOk s = false) : Config.ofDoc O d = none := by
  cases hc : Config.ofDoc O d with
  | none => rfl
  | some c =>
    obtain ⟨vs', hd', hz⟩ := configDoc_iff.1 hc
    have he := entry_unique hd hd'
    injection he with he
    subst he
    obtain ⟨rule, -, hrule⟩ := zip_exists hz hr
    obtain ⟨r', hr', hrule⟩ | ⟨_, hr', _⟩ := hrule
    case inr => cases hr'
    cases hr'
    rcases hbad with hbad | ⟨s, hs, hbad⟩
    · have := docField_some_iff.2 hrule.path
      rw [docField_none_iff.2 hbad] at this
      cases this
    · have he := entry_unique hs hrule.path
      injection he with he
      injection he with he
      rw [he, hrule.valid] at hbad
      cases hbad

/-- The fields of a rule. -/
def ruleFields : List Str := [c!"path_regex", c!"mac_only_encrypted", c!"partial_encryption", c!"integration_keys"]

theorem docField_skip (a b : RMap JsonScalar) {k k' : Str} (hk : k ≠ k') (v : Json) :
    docField (a ++ (k, v) :: b) k' = docField (a ++ b) k' := by
  have hb : (k == k') = false := beq_eq_false_iff_ne.2 hk
  unfold docField
  simp only [List.filter_append, List.filter_cons, hb, Bool.false_eq_true, if_false]

/-- **C59, limit.** Fields of other names are not noticed. So a rule whose field is misspelt, say
`integration_key` instead of `integration_keys`, is a valid rule without keys, and one with
`partial_encrypton` encrypts everything. -/
theorem C59_unknown_ignored (O : DocOps) (a b : RMap JsonScalar) {k : Str} (hk : k ∉ ruleFields) (v : Json) :
    CreationRule.ofDoc O (a ++ (k, v) :: b) = CreationRule.ofDoc O (a ++ b) := by
  simp only [ruleFields, List.mem_cons, List.not_mem_nil, or_false, not_or] at hk
  obtain ⟨h1, h2, h3, h4⟩ := hk
  simp only [CreationRule.ofDoc, docStr, optField, IntegrationKeys.ofField, docField_skip a b h1, docField_skip a b h2,
    docField_skip a b h3, docField_skip a b h4]

/-- **C59.** The order of the fields of a rule, and of the entries of the configuration, does not
matter. -/
theorem C59_order (O : DocOps) {d d' : RMap JsonScalar} (h : d.Perm d') :
    CreationRule.ofDoc O d = CreationRule.ofDoc O d' ∧ Config.ofDoc O d = Config.ofDoc O d' := by
  have hf : ∀ k, docField d k = docField d' k := by
    intro k
    have hp := h.filter (fun e => e.1 == k)
    have hl := hp.length_eq
    have hm : ∀ {β : Type} {l l' : List (Str × β)}, l.Perm l' → l.length = l'.length →
        (match l with | [] => some none | [(_, v)] => some (some v) | _ => none) =
        (match l' with | [] => some none | [(_, v)] => some (some v) | _ => (none : Option (Option β))) := by
      intro β l l' hp hl
      match l, l' with
      | [], [] => rfl
      | [x], [y] => rw [List.singleton_perm_singleton.1 hp]
      | _ :: _ :: _, _ :: _ :: _ => rfl
      | [], _ :: _ => cases hl
      | _ :: _, [] => cases hl
      | [_], _ :: _ :: _ => simp at hl
      | _ :: _ :: _, [_] => simp at hl
    exact hm hp hl
  simp only [CreationRule.ofDoc, Config.ofDoc, docStr, optField, IntegrationKeys.ofField, hf, and_self]

/-- A configuration with two rules is read, and a misspelt field is not noticed. -/
example : Config.ofDoc Toy.docOps [(c!"creation_rules", .seq [
      .map [(c!"integration_keys", .map [(c!"age", .seq [.leaf (.str c!"pk1")])]), (c!"path_regex", .leaf (.str c!"a"))],
      .map [(c!"path_regex", .leaf (.str c!"b")), (c!"integration_key", .map [(c!"age", .seq [.leaf (.str c!"pk1")])])]])] =
    some [⟨c!"a", none, none, ⟨[c!"pk1"], []⟩⟩, ⟨c!"b", none, none, ⟨[], []⟩⟩] := by decide +kernel

/-- A rule may also be an array of its values in the order of the program; then its path, flag and
setting have to be given. -/
example : Config.ofDoc Toy.docOps [(c!"creation_rules", .seq [.seq [isText c!"a", .leaf (.bool true),
      .map [(c!"encrypted_suffix", isText c!"_s")], .seq [.seq [isText c!"pk1"]]]])] =
    some [⟨c!"a", some true, some (.encryptedSuffix c!"_s"), ⟨[c!"pk1"], []⟩⟩] ∧
    Config.ofDoc Toy.docOps [(c!"creation_rules", .seq [.seq [isText c!"a"]])] = none := by
  refine ⟨configDoc_iff.2 ⟨_, ⟨[], [], rfl, fun _ h => (nomatch h), fun _ h => (nomatch h)⟩, .cons (.inr ⟨_, rfl, .keys ?_
    (.encryptedSuffix _) (.inr ⟨_, rfl, .age ⟨[c!"pk1"], rfl, .cons ?_ .nil⟩⟩)⟩) .nil⟩, ?_⟩
  · decide +kernel
  · show _ = _; decide +kernel
  · decide +kernel

/-- With the pattern "(" there is no configuration. -/
example : Config.ofDoc Toy.docOps [(c!"creation_rules", .seq [
      .map [(c!"path_regex", .leaf (.str c!"a"))], .map [(c!"path_regex", .leaf (.str c!"("))]])] = none := by
  refine C59_one_bad_rule _ _ [.map [(c!"path_regex", .leaf (.str c!"a"))], .map [(c!"path_regex", .leaf (.str c!"("))]]
    ⟨[], [], rfl, fun _ h => (nomatch h), fun _ h => (nomatch h)⟩ _ (.tail _ (.head _)) (Or.inr ⟨c!"(", ?_, by decide +kernel⟩)
  exact ⟨[], [], rfl, fun _ h => (nomatch h), fun _ h => (nomatch h)⟩

/-- The configuration of the process used in examples. -/
example : ∃ b s d v, (Toy.proc Toy.rule [] []).file c!"/.rops.toml" = .data b ∧ utf8? b = some s ∧
    ((Toy.proc Toy.rule [] []).T .toml).parse s = some d ∧ SeenTomlMap d v ∧ DescribesConfig Toy.docOps v [Toy.creationRule] :=
  (C59_file_iff (Toy.proc Toy.rule [] []) _ _).1 (by decide +kernel)

/-! ## C60 -/

/-- **C60.** A document is the metadata `md` exactly if each of its entries describes the part
of `md` with its name: the units of both services, the date, the MAC, the setting and the flag. -/
theorem C60_metadata_iff {M : Type} (O : DocOps) (parseMac : Str → Option M) (d : RMap JsonScalar) (md : Metadata M) :
    Metadata.ofDoc O parseMac d = some md ↔ DescribesMetadata O parseMac d md := metadataDoc_iff

/-- **C60.** A text is the encrypted file `f` exactly if it is the text of a document whose
"sops" part describes the metadata of `f` and whose rest is the map of `f`. -/
theorem C60_file_iff {D : DocFormat} (T : TextOps D) (O : DocOps) (C : Cipher) (s : Str) (f : EncFile D.F) :
    EncFile.ofText T O C s = some f ↔ ∃ d md, T.parse s = some d ∧ D.takeSops d = some (f.map, md) ∧
      DescribesMetadata O (fun s => (EncValue.parse C s).toOption) md f.metadata := by
  unfold EncFile.ofText EncFile.ofDoc
  constructor
  · intro h
    split at h
    · cases h
    · rename_i d hd
      split at h
      · cases h
      · rename_i map md hm
        split at h
        · cases h
        · rename_i metadata hmd
          cases h
          exact ⟨d, md, hd, hm, metadataDoc_iff.1 hmd⟩
  · rintro ⟨d, md, h1, h2, h3⟩
    rw [h1]
    simp only [h2, metadataDoc_iff.2 h3]

/-- **C60.** In JSON the metadata is the object under the only key "sops", the map is the rest in
its order. -/
theorem C60_json_parts (d m : List (Str × Json)) (md : RMap JsonScalar) :
    DocFormat.json.takeSops d = some (m, md) ↔ Apart d c!"sops" (.map md) m := by
  show Json.takeSops d = _ ↔ _
  unfold Json.takeSops
  constructor
  · intro h
    split at h
    · rename_i t hd
      cases h
      exact (apart_iff (p := fun k => k == sopsKey) (fun x => beq_iff_eq)).2 ⟨docField_filter.1 hd, rfl⟩
    · cases h
  · intro h
    obtain ⟨h1, rfl⟩ := (apart_iff (p := fun k => k == sopsKey) (fun x => beq_iff_eq)).1 h
    rw [docField_filter.2 h1]
    rfl

example : DocFormat.json.takeSops [(c!"b", .null), (c!"sops", .map [(c!"mac", .null)]), (c!"a", .null)] =
    some ([(c!"b", .null), (c!"a", .null)], [(c!"mac", .null)]) :=
  (C60_json_parts _ _ _).2 ⟨[(c!"b", .null)], [(c!"a", .null)], rfl, rfl, by simp⟩

/-- **C60.** In TOML the metadata is the table under the only key "sops", a date in it counts as a
map with a private key, the map is the rest in its order. -/
theorem C60_toml_parts (d m : List (Str × Toml)) (md : RMap JsonScalar) :
    DocFormat.toml.takeSops d = some (m, md) ↔ ∃ t, Apart d c!"sops" (.table t) m ∧ SeenTomlMap t md := by
  show Toml.takeSops d = _ ↔ _
  unfold Toml.takeSops
  constructor
  · intro h
    split at h
    · rename_i t hd
      cases h
      exact ⟨t, (apart_iff (p := fun k => k == sopsKey) (fun x => beq_iff_eq)).2 ⟨docField_filter.1 hd, rfl⟩,
        (seenTomlMap_iff t _).1 rfl⟩
    · cases h
  · rintro ⟨t, h, hs⟩
    obtain ⟨h1, rfl⟩ := (apart_iff (p := fun k => k == sopsKey) (fun x => beq_iff_eq)).1 h
    rw [docField_filter.2 h1, ← (seenTomlMap_iff t md).2 hs]
    rfl

example : DocFormat.toml.takeSops [(c!"sops", .table [(c!"mac", .str c!"m"), (c!"age", .array [])]), (c!"a", .int 1)] =
    some ([(c!"a", .int 1)], [(c!"mac", .leaf (.str c!"m")), (c!"age", .seq [])]) :=
  (C60_toml_parts _ _ _).2 ⟨_, ⟨[], _, rfl, rfl, by simp⟩, .cons (.str _) (.cons (.array .nil) .nil)⟩

/-- **C60.** In YAML the metadata is the mapping under the only key "sops", in which entries under
null, Booleans and numbers are passed over, but keys that are no scalars and tags are errors. -/
theorem C60_yaml_parts (d m : List (Yaml × Yaml)) (md : RMap JsonScalar) :
    DocFormat.yaml.takeSops d = some (m, md) ↔ ∃ t, Apart d (.str c!"sops") (.map t) m ∧ SeenYamlMap t md := by
  have hp : ∀ y : Yaml, y.isSops = true ↔ y = .str c!"sops" := by
    intro y
    cases y <;> simp [Yaml.isSops, sopsKey]
  show Yaml.takeSops d = _ ↔ _
  unfold Yaml.takeSops
  constructor
  · intro h
    split at h
    · rename_i k t hd
      split at h
      · rename_i md' hm
        cases h
        have : (k, Yaml.map t) ∈ d.filter (fun e => e.1.isSops) := by rw [hd]; exact List.mem_singleton.2 rfl
        have hk := (hp k).1 (List.mem_filter.1 this).2
        subst hk
        exact ⟨t, (apart_iff hp).2 ⟨hd, rfl⟩, (seenYamlMap_iff t _).1 hm⟩
      · cases h
    · cases h
  · rintro ⟨t, h, hs⟩
    obtain ⟨h1, rfl⟩ := (apart_iff hp).1 h
    rw [h1]
    simp only [(seenYamlMap_iff t md).2 hs]

example : DocFormat.yaml.takeSops [(.str c!"a", .null), (.str c!"sops", .map [(.null, .bool true), (.str c!"mac", .str c!"m")])] =
    some ([(.str c!"a", .null)], [(c!"mac", .leaf (.str c!"m"))]) :=
  (C60_yaml_parts _ _ _).2 ⟨_, ⟨[_], [], rfl, rfl, by simp⟩, .other trivial (.bool _) (.text (.str _) .nil)⟩

example : DocFormat.yaml.takeSops [(.str c!"sops", .map [(.seq [], .null), (.str c!"mac", .str c!"m")])] = none := by rfl

/-- **C60.** Of the units for the same key only the last one counts: the file that is read has no
key twice, its keys are those of the document, and each of its units is the last one for its key. -/
theorem C60_last_unit {O : DocOps} {k : Kind} {d : RMap JsonScalar} {n : Str} {ds : List (RMap JsonScalar)} {us res : List (IUnit k)}
    (hd : Spec.Entry d n (.seq (ds.map .map))) (hz : Zip (DescribesUnit O k) ds us) :
    unitsOfField O k d n = some res ↔ LastUnits us res := by
  rw [unitsOfField_iff]
  constructor
  · rintro (⟨h, -⟩ | ⟨ds', us', hd', hz', hl⟩)
    · rw [← docField_some_iff, docField_none_iff.2 h] at hd
      cases hd
    · have h1 := unitsList_iff.2 ⟨ds, rfl, hz⟩
      have h2 := unitsList_iff.2 ⟨ds', rfl, hz'⟩
      have he := entry_unique hd hd'
      injection he with he
      rw [← he] at h2
      cases h1.symm.trans h2
      exact hl
  · intro hl
    exact Or.inr ⟨ds, us, hd, hz, hl⟩

theorem C60_no_key_twice {k : Kind} {us res : List (IUnit k)} (h : LastUnits us res) :
    (res.map IUnit.keyId).Nodup ∧ (∀ id, id ∈ res.map IUnit.keyId ↔ id ∈ us.map IUnit.keyId) ∧ res.length ≤ us.length := by
  refine ⟨h.1 ▸ firsts_nodup _, fun id => by rw [h.1]; exact mem_firsts, ?_⟩
  have hlen : ∀ {α : Type} [DecidableEq α] (l : List α), (firsts l).length ≤ l.length := by
    intro α _ l
    induction l with
    | nil => exact Nat.le_refl _
    | cons x l ih => exact Nat.succ_le_succ (Nat.le_trans (List.length_filter_le _ _) ih)
  have := congrArg List.length h.1
  rw [List.length_map] at this
  rw [this]
  exact Nat.le_trans (hlen _) (by simp)

set_option maxRecDepth 20000 in
/-- A document with two units for the same recipient, the flag null and a setting with an
invalid pattern: the second unit is read, no flag and no setting. -/
example : Metadata.ofDoc Toy.docOps some [(c!"age", .seq [
      .map [(c!"recipient", .leaf (.str c!"pk1")), (c!"enc", .leaf (.str c!"one"))],
      .map [(c!"recipient", .leaf (.str c!"pk2")), (c!"enc", .leaf (.str c!"two"))],
      .map [(c!"enc", .leaf (.str c!"three")), (c!"recipient", .leaf (.str c!"pk1"))]]),
    (c!"mac_only_encrypted", .null), (c!"encrypted_regex", .leaf (.str c!"(")),
    (c!"mac", .leaf (.str c!"m")), (c!"lastmodified", .leaf (.str (Timestamp.docText ⟨2024, 1, 2, 3, 4, 5, 0⟩)))] =
    some ⟨⟨[], [⟨c!"pk1", none, c!"three"⟩, ⟨c!"pk2", none, c!"two"⟩]⟩, ⟨2024, 1, 2, 3, 4, 5, 0⟩, c!"m", none, none⟩ := by
  rfl

end Rops.Props
