import Verif.Model.Document
/-!
# Configuration

Models crates/cli/src/config/ and crates/cli/src/integration_keys.rs. The text syntax of TOML
is a parameter, see `TextOps`.
-/

namespace Rops

/-- `IntegrationKeys` (integration_keys.rs:14-30). -/
structure IntegrationKeys where
  age : List Str
  kms : List AwsKeyId
deriving DecidableEq, Repr

/-- `IntegrationKeys::merge` (integration_keys.rs:33-36). -/
def IntegrationKeys.merge (a b : IntegrationKeys) : IntegrationKeys :=
  { age := a.age ++ b.age, kms := a.kms ++ b.kms }

/-- `identical_keys` (integration_keys.rs:42-46): the symmetric difference of the two sets has
no element. -/
def identicalKeys {α : Type} [DecidableEq α] (a b : List α) : Bool :=
  (a.filter (fun x => !b.contains x) ++ b.filter (fun x => !a.contains x)).isEmpty

/-- `IntegrationKeys::implies_integration_metadata` (integration_keys.rs:38-47). -/
def IntegrationKeys.implies (k : IntegrationKeys) (im : IntegrationMetadata) : Bool :=
  identicalKeys k.age (im.age.map fun u => (u.keyId : Str)) &&
    identicalKeys k.kms (im.kms.map fun u => (u.keyId : AwsKeyId))

/-- `IntegrationKeys::add_to_builder` (integration_keys.rs:49-53). -/
def IntegrationKeys.addToBuilder {F : Format} (k : IntegrationKeys) (b : Builder F) : Builder F :=
  (b.addKeys .age k.age).addKeys .kms k.kms

/-- `CreationRule` (config/creation_rule.rs:7-19). -/
structure CreationRule where
  pathRegex : Str
  macOnlyEncrypted : Option Bool
  partialEncryption : Option PartialEncryption
  keys : IntegrationKeys
deriving DecidableEq, Repr

/-- `CreationRule::implies_metadata` (creation_rule.rs:21-27). -/
def CreationRule.implies {M : Type} (r : CreationRule) (md : Metadata M) : Bool :=
  r.macOnlyEncrypted == md.macOnlyEncrypted && r.partialEncryption == md.partialEncryption && r.keys.implies md.integration

/-- `Config` (config/core.rs:7-11). -/
abbrev Config := List CreationRule

/-- The elements of a sequence of texts, each parsed (`Vec<DisplayFromStr>`). -/
def keysOfSeq {α : Type} (parse : Str → Option α) : List Json → Option (List α)
  | [] => some []
  | .leaf (.str s) :: r => match parse s, keysOfSeq parse r with
    | some a, some l => some (a :: l)
    | _, _ => none
  | _ :: _ => none

/-- A field of keys with `default` (integration_keys.rs:20-21,26-27). -/
def keysOfField {α : Type} (parse : Str → Option α) (d : RMap JsonScalar) (k : Str) : Option (List α) :=
  match docField d k with
  | some none => some []
  | some (some (.seq l)) => keysOfSeq parse l
  | _ => none

/-- `Deserialize for IntegrationKeys`; for panics in the parser of an ARN see
Model/Reading.lean. -/
def IntegrationKeys.ofDoc (O : DocOps) (d : RMap JsonScalar) : Option IntegrationKeys :=
  match keysOfField O.A.parseRecipient d c!"age", keysOfField (fun s => (AwsKeyId.parse O.arn s).toOption) d c!"aws_kms" with
  | some age, some kms => some { age, kms }
  | _, _ => none

/-- A value that is a list of keys. -/
def keysOfValue {α : Type} (parse : Str → Option α) : Json → Option (List α)
  | .seq l => keysOfSeq parse l
  | _ => none

/-- `IntegrationKeys` given as an array (`visit_seq` of derived code): the values of the fields in
the order of the struct. Missing ones have their defaults, further ones are not looked at. -/
def IntegrationKeys.ofArray (O : DocOps) : List Json → Option IntegrationKeys
  | [] => some { age := [], kms := [] }
  | [a] => match keysOfValue O.A.parseRecipient a with
    | some age => some { age, kms := [] }
    | none => none
  | a :: k :: _ => match keysOfValue O.A.parseRecipient a, keysOfValue (fun s => (AwsKeyId.parse O.arn s).toOption) k with
    | some age, some kms => some { age, kms }
    | _, _ => none

/-- A value that is a table or an array. -/
def IntegrationKeys.ofValue (O : DocOps) : Json → Option IntegrationKeys
  | .map d => IntegrationKeys.ofDoc O d
  | .seq l => IntegrationKeys.ofArray O l
  | _ => none

/-- `Deserialize for PartialEncryptionConfig` (partial_encryption.rs:6-14) where it is not
flattened: a table with exactly one entry. -/
def PartialEncryption.ofTable (O : DocOps) : Json → Option PartialEncryption
  | .map [(k, .leaf (.str s))] => match PartialEncryption.ofName k with
    | some make => if (make s).ok O then some (make s) else none
    | none => none
  | _ => none

/-- An optional field with a parser for its value. -/
def optField {α : Type} (parse : Json → Option α) (d : RMap JsonScalar) (k : Str) : Option (Option α) :=
  match docField d k with
  | some none => some none
  | some (some v) => match parse v with
    | some a => some (some a)
    | none => none
  | none => none

/-- A Boolean. -/
def Json.asBool : Json → Option Bool
  | .leaf (.bool b) => some b
  | _ => none

/-- The field `integration_keys` with `default` (creation_rule.rs:17-18). -/
def IntegrationKeys.ofField (O : DocOps) (d : RMap JsonScalar) : Option IntegrationKeys :=
  match optField (IntegrationKeys.ofValue O) d c!"integration_keys" with
  | some (some k) => some k
  | some none => some { age := [], kms := [] }
  | none => none

/-- `Deserialize for CreationRule`. (TOML has no null.) -/
def CreationRule.ofDoc (O : DocOps) (d : RMap JsonScalar) : Option CreationRule :=
  match docStr d c!"path_regex", optField Json.asBool d c!"mac_only_encrypted",
      optField (PartialEncryption.ofTable O) d c!"partial_encryption", IntegrationKeys.ofField O d with
  | some pathRegex, some macOnlyEncrypted, some partialEncryption, some keys =>
    if O.regexOk pathRegex then some { pathRegex, macOnlyEncrypted, partialEncryption, keys } else none
  | _, _, _, _ => none

/-- The last field of a rule given as an array. -/
def IntegrationKeys.ofRest (O : DocOps) : List Json → Option IntegrationKeys
  | [] => some { age := [], kms := [] }
  | k :: _ => IntegrationKeys.ofValue O k

/-- `CreationRule` given as an array. Only the keys have a default (`visit_seq` of derived code
takes no notice of optional types). -/
def CreationRule.ofArray (O : DocOps) : List Json → Option CreationRule
  | .leaf (.str pathRegex) :: m :: p :: r =>
    match m.asBool, PartialEncryption.ofTable O p, IntegrationKeys.ofRest O r with
    | some m, some p, some keys =>
      if O.regexOk pathRegex then some { pathRegex, macOnlyEncrypted := some m, partialEncryption := some p, keys } else none
    | _, _, _ => none
  | _ => none

/-- A value that is a table or an array. -/
def CreationRule.ofValue (O : DocOps) : Json → Option CreationRule
  | .map d => CreationRule.ofDoc O d
  | .seq l => CreationRule.ofArray O l
  | _ => none

/-- The elements of the sequence of rules. -/
def Config.ofSeq (O : DocOps) : List Json → Option Config
  | [] => some []
  | v :: r => match CreationRule.ofValue O v, Config.ofSeq O r with
    | some c, some l => some (c :: l)
    | _, _ => none

/-- `Deserialize for Config`: the field `creation_rules` is required. -/
def Config.ofDoc (O : DocOps) (d : RMap JsonScalar) : Option Config :=
  match docField d c!"creation_rules" with
  | some (some (.seq l)) => Config.ofSeq O l
  | _ => none

/-- `DefaulConfigFileFormat::deserialize_from_str` (config/retrieve.rs:6,39). -/
def Config.ofText (T : TextOps .toml) (O : DocOps) (s : Str) : Option Config :=
  match T.parse s with
  | some d => Config.ofDoc O (Toml.mapToDoc d)
  | none => none

end Rops
