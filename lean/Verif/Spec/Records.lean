import Verif.Model.Config
import Verif.Spec.File
/-!
# What configurations and metadata say

Documents are lists of named entries. A field is found by its name, wherever it stands, and must
not be given twice.
-/

namespace Rops.Spec

/-- The document has no entry of that name. -/
def Absent (d : RMap JsonScalar) (k : Str) : Prop := ∀ v, (k, v) ∉ d

/-- The document has exactly one entry of that name. -/
def Entry (d : RMap JsonScalar) (k : Str) (v : Json) : Prop :=
  ∃ a b, d = a ++ (k, v) :: b ∧ Absent a k ∧ Absent b k

/-- A text. -/
def isText (s : Str) : Json := .leaf (.str s)

/-- An entry that may be missing. -/
def Optionally {α : Type} (d : RMap JsonScalar) (k : Str) (R : Json → α → Prop) : Option α → Prop
  | none => Absent d k
  | some a => ∃ v, Entry d k v ∧ R v a

/-- A list of texts that may be missing; all of them are read. -/
def Listed {α : Type} (d : RMap JsonScalar) (k : Str) (reads : Str → α → Prop) (l : List α) : Prop :=
  (Absent d k ∧ l = []) ∨ ∃ ts, Entry d k (.seq (ts.map isText)) ∧ Zip reads ts l

/-! ## Configurations -/

/-- A list of texts; all of them are read. -/
def ListOf {α : Type} (reads : Str → α → Prop) (v : Json) (l : List α) : Prop :=
  ∃ ts, v = .seq (ts.map isText) ∧ Zip reads ts l

/-- A text is an age key. -/
def ReadsAge (O : DocOps) (t x : Str) : Prop := O.A.parseRecipient t = some x

/-- A text is a key of AWS KMS. -/
def ReadsKms (O : DocOps) (t : Str) (x : AwsKeyId) : Prop := AwsKeyId.parse O.arn t = .ok x

/-- The keys of a rule as a table. -/
def KeysByName (O : DocOps) (d : RMap JsonScalar) (k : IntegrationKeys) : Prop :=
  Listed d c!"age" (ReadsAge O) k.age ∧ Listed d c!"aws_kms" (ReadsKms O) k.kms

/-- The keys of a rule as an array: first those of age, then those of AWS KMS; anything may
follow. -/
inductive KeysInOrder (O : DocOps) : List Json → IntegrationKeys → Prop
  | none : KeysInOrder O [] { age := [], kms := [] }
  | age {v age} : ListOf (ReadsAge O) v age → KeysInOrder O [v] { age, kms := [] }
  | both {v w age kms rest} : ListOf (ReadsAge O) v age → ListOf (ReadsKms O) w kms → KeysInOrder O (v :: w :: rest) { age, kms }

/-- The keys of a rule. -/
def DescribesKeys (O : DocOps) (v : Json) (k : IntegrationKeys) : Prop :=
  (∃ d, v = .map d ∧ KeysByName O d k) ∨ ∃ l, v = .seq l ∧ KeysInOrder O l k

/-- A setting of partial encryption under its name. -/
inductive DescribesSetting (O : DocOps) : Str → Json → PartialEncryption → Prop
  | encryptedSuffix (s) : DescribesSetting O c!"encrypted_suffix" (isText s) (.encryptedSuffix s)
  | encryptedRegex {r} : O.regexOk r = true → DescribesSetting O c!"encrypted_regex" (isText r) (.encryptedRegex r)
  | unencryptedSuffix (s) : DescribesSetting O c!"unencrypted_suffix" (isText s) (.unencryptedSuffix s)
  | unencryptedRegex {r} : O.regexOk r = true → DescribesSetting O c!"unencrypted_regex" (isText r) (.unencryptedRegex r)

/-- A rule as a table. -/
structure RuleByName (O : DocOps) (d : RMap JsonScalar) (r : CreationRule) : Prop where
  path : Entry d c!"path_regex" (isText r.pathRegex)
  valid : O.regexOk r.pathRegex = true
  macOnly : Optionally d c!"mac_only_encrypted" (fun v b => v = .leaf (.bool b)) r.macOnlyEncrypted
  setting : Optionally d c!"partial_encryption" (fun v p => ∃ n x, v = .map [(n, x)] ∧ DescribesSetting O n x p) r.partialEncryption
  keys : (Absent d c!"integration_keys" ∧ r.keys = { age := [], kms := [] }) ∨
    ∃ v, Entry d c!"integration_keys" v ∧ DescribesKeys O v r.keys

/-- A rule as an array: path, flag and setting have to be given; the keys need not be, and anything
may follow them. -/
inductive RuleInOrder (O : DocOps) : List Json → CreationRule → Prop
  | noKeys {s b n x p} : O.regexOk s = true → DescribesSetting O n x p →
    RuleInOrder O [isText s, .leaf (.bool b), .map [(n, x)]] ⟨s, some b, some p, { age := [], kms := [] }⟩
  | keys {s b n x p v k rest} : O.regexOk s = true → DescribesSetting O n x p → DescribesKeys O v k →
    RuleInOrder O (isText s :: .leaf (.bool b) :: .map [(n, x)] :: v :: rest) ⟨s, some b, some p, k⟩

/-- A rule. -/
def DescribesRule (O : DocOps) (v : Json) (r : CreationRule) : Prop :=
  (∃ d, v = .map d ∧ RuleByName O d r) ∨ ∃ l, v = .seq l ∧ RuleInOrder O l r

/-- A configuration. -/
def DescribesConfig (O : DocOps) (d : RMap JsonScalar) (c : Config) : Prop :=
  ∃ vs, Entry d c!"creation_rules" (.seq vs) ∧ Zip (DescribesRule O) vs c

/-! ## Metadata -/

/-- The key of a unit. -/
def DescribesKey (O : DocOps) (d : RMap JsonScalar) : (k : Kind) → k.Id → Prop
  | .age, id => ∃ t, Entry d c!"recipient" (isText t) ∧ O.A.parseRecipient t = some id
  | .kms, id => ∃ t, Entry d c!"aws_profile" (isText id.profile) ∧ Entry d c!"arn" (isText t) ∧ KeyArn.parse O.arn t = .ok id.arn

/-- An entry that may be missing or null. -/
def Nullable {α : Type} (d : RMap JsonScalar) (k : Str) (R : Json → α → Prop) : Option α → Prop
  | none => Absent d k ∨ Entry d k .null
  | some a => ∃ v, Entry d k v ∧ R v a

/-- A unit. -/
structure DescribesUnit (O : DocOps) (k : Kind) (d : RMap JsonScalar) (u : IUnit k) : Prop where
  key : DescribesKey O d k u.keyId
  created : Nullable d c!"created_at" (fun v t => ∃ s, v = isText s ∧ O.parseDate s = some t) u.createdAt
  enc : Entry d c!"enc" (isText u.enc)

/-- The first occurrences in a list. -/
def firsts {α : Type} [DecidableEq α] : List α → List α
  | [] => []
  | x :: l => x :: (firsts l).filter (· ≠ x)

/-- Of the units with the same key the last one counts, at the place of the first. -/
def LastUnits {k : Kind} (us res : List (IUnit k)) : Prop :=
  res.map IUnit.keyId = firsts (us.map IUnit.keyId) ∧
    ∀ u ∈ res, ∃ a b, us = a ++ u :: b ∧ ∀ v ∈ b, v.keyId ≠ u.keyId

/-- The units of one kind. -/
def DescribesUnits (O : DocOps) (k : Kind) (d : RMap JsonScalar) (name : Str) (res : List (IUnit k)) : Prop :=
  (Absent d name ∧ res = []) ∨
    ∃ (ds : List (RMap JsonScalar)) (us : List (IUnit k)), Entry d name (.seq (ds.map .map)) ∧ Zip (DescribesUnit O k) ds us ∧ LastUnits us res

/-- The names of settings. -/
def settingNames : List Str := [c!"encrypted_suffix", c!"encrypted_regex", c!"unencrypted_suffix", c!"unencrypted_regex"]

/-- The setting among the metadata: the first entry with the name of one counts, if it is
valid. -/
def DescribesSomeSetting (O : DocOps) (d : RMap JsonScalar) (p : Option PartialEncryption) : Prop :=
  ((∀ e ∈ d, e.1 ∉ settingNames) ∧ p = none) ∨
    ∃ a n v b, d = a ++ (n, v) :: b ∧ (∀ e ∈ a, e.1 ∉ settingNames) ∧ n ∈ settingNames ∧
      ((∃ q, p = some q ∧ DescribesSetting O n v q) ∨ (p = none ∧ ∀ q, ¬ DescribesSetting O n v q))

/-- The metadata of a file. -/
structure DescribesMetadata {M : Type} (O : DocOps) (parseMac : Str → Option M) (d : RMap JsonScalar) (md : Metadata M) : Prop where
  kms : DescribesUnits O .kms d c!"kms" md.integration.kms
  age : DescribesUnits O .age d c!"age" md.integration.age
  modified : ∃ s, Entry d c!"lastmodified" (isText s) ∧ O.parseDate s = some md.lastModified
  mac : ∃ s, Entry d c!"mac" (isText s) ∧ parseMac s = some md.mac
  macOnly : Nullable d c!"mac_only_encrypted" (fun v b => v = .leaf (.bool b)) md.macOnlyEncrypted
  setting : DescribesSomeSetting O d md.partialEncryption

end Rops.Spec

namespace Rops.Spec

/-! ## Documents with metadata -/

/-- Scalars of YAML that are no texts. -/
def otherScalar : Yaml → Prop
  | .null => True
  | .bool _ => True
  | .num _ => True
  | _ => False

mutual
/-- The YAML value says the same as the JSON value. Entries under scalars that are no texts are
passed over. Nothing corresponds to tags and to other keys. -/
inductive SeenYaml : Yaml → Json → Prop
  | null : SeenYaml .null .null
  | bool (b) : SeenYaml (.bool b) (.leaf (.bool b))
  | num (n) : SeenYaml (.num n) (.leaf (.num n))
  | str (s) : SeenYaml (.str s) (.leaf (.str s))
  | seq {l l'} : SeenYamls l l' → SeenYaml (.seq l) (.seq l')
  | map {m d} : SeenYamlMap m d → SeenYaml (.map m) (.map d)
/-- See `SeenYaml`. -/
inductive SeenYamls : List Yaml → List Json → Prop
  | nil : SeenYamls [] []
  | cons {y j l l'} : SeenYaml y j → SeenYamls l l' → SeenYamls (y :: l) (j :: l')
/-- See `SeenYaml`. -/
inductive SeenYamlMap : List (Yaml × Yaml) → RMap JsonScalar → Prop
  | nil : SeenYamlMap [] []
  | text {k y j m d} : SeenYaml y j → SeenYamlMap m d → SeenYamlMap ((.str k, y) :: m) ((k, j) :: d)
  | other {k y j m d} : otherScalar k → SeenYaml y j → SeenYamlMap m d → SeenYamlMap ((k, y) :: m) d
end

mutual
/-- The TOML value says the same as the JSON value. A date is a map with a private key. -/
inductive SeenToml : Toml → Json → Prop
  | str (s) : SeenToml (.str s) (.leaf (.str s))
  | pos {n : Int64} {u : UInt64} : n.toInt = u.toNat → SeenToml (.int n) (.leaf (.num (.posInt u)))
  | neg {n : Int64} : n.toInt < 0 → SeenToml (.int n) (.leaf (.num (.negInt n)))
  | float (x) : SeenToml (.float x) (.leaf (.num (.float x)))
  | bool (b) : SeenToml (.bool b) (.leaf (.bool b))
  | datetime (s) : SeenToml (.datetime s) (.map [(c!"$__toml_private_datetime", .leaf (.str s))])
  | array {l l'} : SeenTomls l l' → SeenToml (.array l) (.seq l')
  | table {m d} : SeenTomlMap m d → SeenToml (.table m) (.map d)
/-- See `SeenToml`. -/
inductive SeenTomls : List Toml → List Json → Prop
  | nil : SeenTomls [] []
  | cons {t j l l'} : SeenToml t j → SeenTomls l l' → SeenTomls (t :: l) (j :: l')
/-- See `SeenToml`. -/
inductive SeenTomlMap : List (Str × Toml) → RMap JsonScalar → Prop
  | nil : SeenTomlMap [] []
  | cons {k t j m d} : SeenToml t j → SeenTomlMap m d → SeenTomlMap ((k, t) :: m) ((k, j) :: d)
end

/-- A list of entries is one entry under the key and others under other keys. -/
def Apart {κ β : Type} (d : List (κ × β)) (k : κ) (v : β) (rest : List (κ × β)) : Prop :=
  ∃ a b, d = a ++ (k, v) :: b ∧ rest = a ++ b ∧ ∀ e ∈ rest, e.1 ≠ k

end Rops.Spec
