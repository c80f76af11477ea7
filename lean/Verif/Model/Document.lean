import Verif.Model.File
/-!
# Documents

Models the serde implementations of files and metadata: crates/lib/src/file/core.rs:8-19,54-78,
crates/lib/src/file/metadata/core.rs:8-25, crates/lib/src/file/metadata/integration/ and the
configs and key ids of the integrations.

A document is the value tree that a text of the format stands for. What `serde` and the format
libraries do between values and trees is transcribed here; the syntax of the texts is a
parameter (`TextOps`). A value read or written by `serde` without regard to the format is a
`Json` tree, the data model of `serde` as far as it is used. `none` is a deserialisation error.
-/

namespace Rops

/-- The parsers used when metadata is read. -/
structure DocOps where
  /-- `DateTime<Utc>` from text (`chrono`) -/
  parseDate : Str → Option Timestamp
  /-- whether `Regex::new` accepts a pattern -/
  regexOk : Str → Bool
  arn : ArnChecks
  A : AgeOps

/-- `Serialize for DateTime<Utc>` (`chrono`): RFC 3339 in UTC with as many sub-second digits,
in threes, as needed. -/
def Timestamp.docText (t : Timestamp) : Str :=
  yearText t.year ++ ['-'] ++ pad2 t.month ++ ['-'] ++ pad2 t.day ++ ['T'] ++
    pad2 t.hour ++ [':'] ++ pad2 t.minute ++ [':'] ++ pad2 t.second ++
    (if t.nano = 0 then []
     else if t.nano % 1000000 = 0 then '.' :: padDigits 3 (t.nano / 1000000)
     else if t.nano % 1000 = 0 then '.' :: padDigits 6 (t.nano / 1000)
     else '.' :: padDigits 9 t.nano) ++ ['Z']

/-- A field of a struct: `none` if it is given twice, which is an error. -/
def docField {β : Type} (d : List (Str × β)) (k : Str) : Option (Option β) :=
  match d.filter (fun e => e.1 == k) with
  | [] => some none
  | [(_, v)] => some (some v)
  | _ => none

/-- A required field of type `String`. -/
def docStr (d : RMap JsonScalar) (k : Str) : Option Str :=
  match docField d k with
  | some (some (.leaf (.str s))) => some s
  | _ => none

/-- A text in a document. -/
def Json.text (s : Str) : Json := .leaf (.str s)

/-! ## Integration units -/

/-- The flattened config: `AgeConfig` (crates/lib/src/integration/age.rs:141-146) or `AwsKeyId`
(aws_kms/key_id.rs:9-18) in `AwsKmsConfig` (aws_kms/config.rs:5-9). -/
def keyIdToDoc : (k : Kind) → k.Id → RMap JsonScalar
  | .age, id => [(c!"recipient", Json.text id)]
  | .kms, id => [(c!"aws_profile", Json.text id.profile), (c!"arn", Json.text id.arn.toText)]

/-- The inverse. -/
def keyIdOfDoc (O : DocOps) : (k : Kind) → RMap JsonScalar → Option k.Id
  | .age, d => match docStr d c!"recipient" with
    | some s => O.A.parseRecipient s
    | none => none
  | .kms, d => match docStr d c!"aws_profile", docStr d c!"arn" with
    | some profile, some s => match KeyArn.parse O.arn s with
      | .ok arn => some { profile, arn }
      | .error _ => none
    | _, _ => none

/-- `Serialize for IntegrationMetadataUnit` (integration/unit.rs:5-14). -/
def IUnit.toDoc {k : Kind} (u : IUnit k) : RMap JsonScalar :=
  keyIdToDoc k u.keyId ++
    (match u.createdAt with | some t => [(c!"created_at", Json.text t.docText)] | none => []) ++
    [(c!"enc", Json.text u.enc)]

/-- An optional date: absent or null is none. -/
def dateOfDoc (O : DocOps) (d : RMap JsonScalar) (k : Str) : Option (Option Timestamp) :=
  match docField d k with
  | some none => some none
  | some (some .null) => some none
  | some (some (.leaf (.str s))) => match O.parseDate s with
    | some t => some (some t)
    | none => none
  | _ => none

/-- `Deserialize for IntegrationMetadataUnit`. -/
def IUnit.ofDoc (O : DocOps) (k : Kind) (d : RMap JsonScalar) : Option (IUnit k) :=
  match keyIdOfDoc O k d, dateOfDoc O d c!"created_at", docStr d c!"enc" with
  | some keyId, some createdAt, some enc => some { keyId, createdAt, enc }
  | _, _, _ => none

/-- `Serialize for IntegrationMetadataUnits` (integration/units.rs:25-36). -/
def Units.toDoc {k : Kind} (us : Units k) : Json := .seq (us.map fun u => .map u.toDoc)

/-- The elements of a sequence of units. -/
def Units.listOfDoc (O : DocOps) (k : Kind) : List Json → Option (List (IUnit k))
  | [] => some []
  | .map d :: r => match IUnit.ofDoc O k d, Units.listOfDoc O k r with
    | some u, some us => some (u :: us)
    | _, _ => none
  | _ :: _ => none

/-- `Deserialize for IntegrationMetadataUnits` (integration/units.rs:38-54): each unit is
inserted into an empty index map. -/
def Units.ofDoc (O : DocOps) (k : Kind) : Json → Option (Units k)
  | .seq l => match Units.listOfDoc O k l with
    | some us => some (us.foldl Units.insert [])
    | none => none
  | _ => none

/-- A field of units with `default` and `skip_serializing_if = is_empty`
(integration/core.rs:7-14), writing. -/
def unitsField {k : Kind} (name : Str) (us : Units k) : RMap JsonScalar :=
  if us.isEmpty then [] else [(name, us.toDoc)]

/-- The same, reading. -/
def unitsOfField (O : DocOps) (k : Kind) (d : RMap JsonScalar) (name : Str) : Option (Units k) :=
  match docField d name with
  | none => none
  | some none => some []
  | some (some v) => Units.ofDoc O k v

/-! ## Metadata -/

/-- `Serialize for PartialEncryptionConfig` (partial_encryption.rs:4-14): the variant in snake
case with its text. -/
def PartialEncryption.toDoc : PartialEncryption → Str × Json
  | .encryptedSuffix s => (c!"encrypted_suffix", Json.text s)
  | .encryptedRegex s => (c!"encrypted_regex", Json.text s)
  | .unencryptedSuffix s => (c!"unencrypted_suffix", Json.text s)
  | .unencryptedRegex s => (c!"unencrypted_regex", Json.text s)

/-- The variant of a field name, `none` if it is none of them. -/
def PartialEncryption.ofName : Str → Option (Str → PartialEncryption)
  | k => if k = c!"encrypted_suffix" then some .encryptedSuffix
    else if k = c!"encrypted_regex" then some .encryptedRegex
    else if k = c!"unencrypted_suffix" then some .unencryptedSuffix
    else if k = c!"unencrypted_regex" then some .unencryptedRegex
    else none

/-- Whether the pattern of the setting is accepted. -/
def PartialEncryption.ok (O : DocOps) : PartialEncryption → Bool
  | .encryptedSuffix _ | .unencryptedSuffix _ => true
  | .encryptedRegex r | .unencryptedRegex r => O.regexOk r

/-- The flattened `Option<PartialEncryptionConfig>` (metadata/core.rs:22-23): `serde` takes the
first field named like a variant, and an error in it makes the option `None`. -/
def PartialEncryption.ofDoc (O : DocOps) : RMap JsonScalar → Option PartialEncryption
  | [] => none
  | (k, v) :: r => match PartialEncryption.ofName k with
    | none => PartialEncryption.ofDoc O r
    | some make => match v with
      | .leaf (.str s) => if (make s).ok O then some (make s) else none
      | _ => none

/-- `Serialize for RopsFileMetadata` (metadata/core.rs:8-25), with the text of the MAC as
argument; `skip_serializing_none` drops absent options. -/
def Metadata.toDoc {M : Type} (showMac : M → Str) (md : Metadata M) : RMap JsonScalar :=
  unitsField c!"kms" md.integration.kms ++ unitsField c!"age" md.integration.age ++
    [(c!"lastmodified", Json.text md.lastModified.docText), (c!"mac", Json.text (showMac md.mac))] ++
    (match md.partialEncryption with | some p => [p.toDoc] | none => []) ++
    (match md.macOnlyEncrypted with | some b => [(c!"mac_only_encrypted", .leaf (.bool b))] | none => [])

/-- An optional Boolean: absent or null is none. -/
def boolOfDoc (d : RMap JsonScalar) (k : Str) : Option (Option Bool) :=
  match docField d k with
  | some none => some none
  | some (some .null) => some none
  | some (some (.leaf (.bool b))) => some (some b)
  | _ => none

/-- A required date. -/
def reqDateOfDoc (O : DocOps) (d : RMap JsonScalar) (k : Str) : Option Timestamp :=
  match docStr d k with
  | some s => O.parseDate s
  | none => none

/-- A required text with a parser (`DisplayFromStr`). -/
def parsedOfDoc {M : Type} (parse : Str → Option M) (d : RMap JsonScalar) (k : Str) : Option M :=
  match docStr d k with
  | some s => parse s
  | none => none

/-- `Deserialize for RopsFileMetadata`; unknown fields are ignored. -/
def Metadata.ofDoc {M : Type} (O : DocOps) (parseMac : Str → Option M) (d : RMap JsonScalar) : Option (Metadata M) :=
  match unitsOfField O .kms d c!"kms", unitsOfField O .age d c!"age", reqDateOfDoc O d c!"lastmodified",
      parsedOfDoc parseMac d c!"mac", boolOfDoc d c!"mac_only_encrypted" with
  | some kms, some age, some lastModified, some mac, some macOnlyEncrypted =>
    some { integration := { kms, age }, lastModified, mac, partialEncryption := PartialEncryption.ofDoc O d,
           macOnlyEncrypted }
  | _, _, _, _, _ => none

/-! ## Files -/

/-- The field of the metadata (file/core.rs:17). -/
def sopsKey : Str := c!"sops"

/-- `FileFormat::serialize_to_string` and `deserialize_from_str` at the level of documents
(file/format/core.rs): the format, how the flattened map and the field of the metadata are
joined and taken apart, and the order of the entries in the text written. Documents of texts
that are read have no repeated keys but "sops" (simplification: for the others TOML and YAML
report an error, JSON takes the last). -/
structure DocFormat where
  F : Format
  addSops : F.Map → RMap JsonScalar → F.Map
  takeSops : F.Map → Option (F.Map × RMap JsonScalar)
  /-- the metadata under the first entry "sops" -/
  firstSops : F.Map → Option (RMap JsonScalar)
  order : F.Map → F.Map

/-- A flattened map followed by a field (`serde` derive on file/core.rs:8-19). -/
def Json.addSops (m : List (Str × Json)) (d : RMap JsonScalar) : List (Str × Json) := m ++ [(sopsKey, .map d)]

/-- The field "sops" is required, twice is an error; the other entries are the map. -/
def Json.takeSops (m : List (Str × Json)) : Option (List (Str × Json) × RMap JsonScalar) :=
  match docField m sopsKey with
  | some (some (.map d)) => some (m.filter (fun e => e.1 != sopsKey), d)
  | _ => none

/-- The metadata under the first entry "sops", if it is a map. -/
def Json.firstSops (m : List (Str × Json)) : Option (RMap JsonScalar) :=
  match IndexMap.get m sopsKey with
  | some (.map d) => some d
  | _ => none

def DocFormat.json : DocFormat where
  F := .json
  addSops := Json.addSops
  takeSops := Json.takeSops
  firstSops := Json.firstSops
  order m := m

/-- A scalar serialised to YAML. -/
def Yaml.ofScalar : JsonScalar → Yaml
  | .bool b => .bool b
  | .num n => .num n
  | .str s => .str s

mutual
/-- What `serde` sees of a YAML value. Entries with keys that are other scalars are ignored as
unknown fields, keys that are no scalars are errors; tags in metadata are taken as errors
(simplification). -/
def Yaml.toDoc : Yaml → Option Json
  | .null => some .null
  | .bool b => some (.leaf (.bool b))
  | .num n => some (.leaf (.num n))
  | .str s => some (.leaf (.str s))
  | .seq l => match Yaml.seqToDoc l with
    | some l => some (.seq l)
    | none => none
  | .map m => match Yaml.mapToDoc m with
    | some m => some (.map m)
    | none => none
  | .tagged _ _ => none
/-- See `Yaml.toDoc`. -/
def Yaml.seqToDoc : List Yaml → Option (List Json)
  | [] => some []
  | y :: r => match Yaml.toDoc y, Yaml.seqToDoc r with
    | some y, some r => some (y :: r)
    | _, _ => none
/-- See `Yaml.toDoc`. -/
def Yaml.mapToDoc : List (Yaml × Yaml) → Option (RMap JsonScalar)
  | [] => some []
  | (k, y) :: r => match Yaml.toDoc y, Yaml.mapToDoc r with
    | some y, some r => match k with
      | .str k => some ((k, y) :: r)
      | .null => some r
      | .bool _ => some r
      | .num _ => some r
      | _ => none
    | _, _ => none
end

/-- Whether a YAML key is "sops". -/
def Yaml.isSops : Yaml → Bool
  | .str s => s == sopsKey
  | _ => false

/-- See `Json.addSops`. -/
def Yaml.addSops (m : List (Yaml × Yaml)) (d : RMap JsonScalar) : List (Yaml × Yaml) :=
  m ++ [(.str sopsKey, .map (Yaml.ofMap Yaml.ofScalar d))]

/-- See `Json.takeSops`. -/
def Yaml.takeSops (m : List (Yaml × Yaml)) : Option (List (Yaml × Yaml) × RMap JsonScalar) :=
  match m.filter (fun e => e.1.isSops) with
  | [(_, .map d)] => match Yaml.mapToDoc d with
    | some d => some (m.filter (fun e => !e.1.isSops), d)
    | none => none
  | _ => none

/-- See `Json.firstSops`. -/
def Yaml.firstSops (m : List (Yaml × Yaml)) : Option (RMap JsonScalar) :=
  match m.find? (fun e => e.1.isSops) with
  | some (_, .map d) => Yaml.mapToDoc d
  | _ => none

def DocFormat.yaml : DocFormat where
  F := .yaml
  addSops := Yaml.addSops
  takeSops := Yaml.takeSops
  firstSops := Yaml.firstSops
  order m := m

/-- A scalar serialised to TOML; metadata has no numbers. -/
def Toml.ofScalar : JsonScalar → Toml
  | .bool b => .bool b
  | .num (.posInt n) => .int n.toInt64
  | .num (.negInt n) => .int n
  | .num (.float s) => .float s
  | .str s => .str s

mutual
/-- What `serde` sees of a TOML value; a datetime is a map with a private key. -/
def Toml.toDoc : Toml → Json
  | .str s => .leaf (.str s)
  | .int n => .leaf (.num (.ofI64 n))
  | .float s => .leaf (.num (.float s))
  | .bool b => .leaf (.bool b)
  | .datetime s => .map [(c!"$__toml_private_datetime", .leaf (.str s))]
  | .array l => .seq (Toml.seqToDoc l)
  | .table m => .map (Toml.mapToDoc m)
/-- See `Toml.toDoc`. -/
def Toml.seqToDoc : List Toml → List Json
  | [] => []
  | t :: r => Toml.toDoc t :: Toml.seqToDoc r
/-- See `Toml.toDoc`. -/
def Toml.mapToDoc : List (Str × Toml) → RMap JsonScalar
  | [] => []
  | (k, t) :: r => (k, Toml.toDoc t) :: Toml.mapToDoc r
end

/-- The TOML serialiser collects entries in an index map, so a field with the name of an entry
of the flattened map replaces it. -/
def Toml.addSops (m : List (Str × Toml)) (d : RMap JsonScalar) : List (Str × Toml) :=
  IndexMap.insert m sopsKey (.table (Toml.ofMap Toml.ofScalar d))

/-- See `Json.takeSops`. -/
def Toml.takeSops (m : List (Str × Toml)) : Option (List (Str × Toml) × RMap JsonScalar) :=
  match docField m sopsKey with
  | some (some (.table d)) => some (m.filter (fun e => e.1 != sopsKey), Toml.mapToDoc d)
  | _ => none

/-- Whether the value is a table. -/
def Toml.isTable : Toml → Bool
  | .table _ => true
  | _ => false

/-- Whether `toml::to_string_pretty` writes the value in sections of its own: tables, and
arrays of at least one table and nothing else (`Item::into_table` and
`Item::into_array_of_tables` in `toml_edit`). -/
def Toml.section : Toml → Bool
  | .table _ => true
  | .array l => !l.isEmpty && l.all Toml.isTable
  | _ => false

mutual
/-- The order in which `toml::to_string_pretty` writes a value: in each table first the
entries without sections, then those with. Values that are not sections, with the inline
tables in them, are written as they are. -/
def Toml.order : Toml → Toml
  | .table m => .table (Toml.plainEntries m ++ Toml.sectionEntries m)
  | .array l => if !l.isEmpty && l.all Toml.isTable then .array (Toml.orderSeq l) else .array l
  | t => t
/-- The elements of an array of tables. -/
def Toml.orderSeq : List Toml → List Toml
  | [] => []
  | t :: r => Toml.order t :: Toml.orderSeq r
/-- The entries with sections. -/
def Toml.sectionEntries : List (Str × Toml) → List (Str × Toml)
  | [] => []
  | (k, t) :: r => if t.section then (k, Toml.order t) :: Toml.sectionEntries r else Toml.sectionEntries r
/-- The entries without. -/
def Toml.plainEntries : List (Str × Toml) → List (Str × Toml)
  | [] => []
  | (k, t) :: r => if t.section then Toml.plainEntries r else (k, t) :: Toml.plainEntries r
end

/-- See `Json.firstSops`. -/
def Toml.firstSops (m : List (Str × Toml)) : Option (RMap JsonScalar) :=
  match IndexMap.get m sopsKey with
  | some (.table d) => some (Toml.mapToDoc d)
  | _ => none

def DocFormat.toml : DocFormat where
  F := .toml
  addSops := Toml.addSops
  takeSops := Toml.takeSops
  firstSops := Toml.firstSops
  order m := Toml.plainEntries m ++ Toml.sectionEntries m

/-- `Serialize for RopsFile` (file/core.rs:8-19) of an encrypted file. -/
def EncFile.toDoc (D : DocFormat) (C : Cipher) (f : EncFile D.F) : D.F.Map :=
  D.addSops f.map (f.metadata.toDoc fun e => e.toText C)

/-- `Deserialize for RopsFile` (file/core.rs:8-19) of an encrypted file. -/
def EncFile.ofDoc (D : DocFormat) (O : DocOps) (C : Cipher) (d : D.F.Map) : Option (EncFile D.F) :=
  match D.takeSops d with
  | none => none
  | some (map, md) => match Metadata.ofDoc O (fun s => (EncValue.parse C s).toOption) md with
    | none => none
    | some metadata => some { map, metadata }

/-- The text syntax of a format: writes a document in its order, and reads one. -/
structure TextOps (D : DocFormat) where
  render : D.F.Map → Str
  parse : Str → Option D.F.Map

/-- `Display for RopsFile` (file/core.rs:54-61). -/
def EncFile.toText {D : DocFormat} (T : TextOps D) (C : Cipher) (f : EncFile D.F) : Str := T.render (f.toDoc D C)

/-- `FromStr for RopsFile` (file/core.rs:69-78). -/
def EncFile.ofText {D : DocFormat} (T : TextOps D) (O : DocOps) (C : Cipher) (s : Str) : Option (EncFile D.F) :=
  match T.parse s with
  | none => none
  | some d => EncFile.ofDoc D O C d

end Rops
