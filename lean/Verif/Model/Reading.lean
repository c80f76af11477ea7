import Verif.Model.Config
/-!
# How reading fails

When a document is not a file or not a configuration (`EncFile.ofDoc`, `Config.ofDoc` give
`none`), reading it ends with an error or, in the parsers of ARNs and encrypted values, with a
panic. Which of them depends on the order of reading, which is that of the code derived by
`serde`: the entries of a struct are read in the order of the document; a field given twice and,
at the end, a field not given is an error; the fields of flattened structs are put aside and
read last, in the order of the struct.

(Simplification: `serde_json` and `serde_yaml` read a text and its values at once. Here a text
that is not a document is an error, even if a panic comes before the place of the error.)
-/

namespace Rops

/-- How reading ends early. -/
inductive Halt where
  | error
  | panic
deriving DecidableEq, Repr

/-- One after the other; `none` is success. -/
def Halt.andThen (a b : Option Halt) : Option Halt :=
  match a with
  | some s => some s
  | none => b

/-- A check with an error. -/
def Halt.unless (ok : Bool) : Option Halt := if ok then none else some .error

/-- The parser of a key id or an ARN. -/
def Halt.ofKey {α : Type} (r : Except IntegrationError α) : Option Halt :=
  match r with
  | .ok _ => none
  | .error .panic => some .panic
  | .error _ => some .error

/-- The parser of an encrypted value. -/
def Halt.ofEnc {α : Type} (r : Except EncParseError α) : Option Halt :=
  match r with
  | .ok _ => none
  | .error .panic => some .panic
  | .error _ => some .error

/-- The loop over the entries of a struct (`visit_map` of derived code): `field` gives the
readers of the fields by name, other entries are ignored; `seen` are the fields read before. -/
def fieldsHalt (field : Str → Option (Json → Option Halt)) (seen : List Str) : RMap JsonScalar → Option Halt
  | [] => none
  | (k, v) :: r => match field k with
    | none => fieldsHalt field seen r
    | some read =>
      if seen.contains k then some .error
      else match read v with
        | some s => some s
        | none => fieldsHalt field (k :: seen) r

/-- The required fields are given. -/
def requiredHalt (names : List Str) (d : RMap JsonScalar) : Option Halt :=
  Halt.unless (names.all fun n => d.any fun e => e.1 == n)

/-- The elements of a sequence. -/
def seqHalt (f : Json → Option Halt) : List Json → Option Halt
  | [] => none
  | v :: r => match f v with
    | some s => some s
    | none => seqHalt f r

/-- A text with a parser. -/
def textHalt (f : Str → Option Halt) : Json → Option Halt
  | .leaf (.str s) => f s
  | _ => some .error

/-- A value that is a map. -/
def mapHalt (f : RMap JsonScalar → Option Halt) : Json → Option Halt
  | .map d => f d
  | _ => some .error

/-- A value that is a sequence. -/
def listHalt (f : Json → Option Halt) : Json → Option Halt
  | .seq l => seqHalt f l
  | _ => some .error

/-- A struct given as an array (`visit_seq` of derived code): its fields in order, with what tells
whether they have to be given. -/
def arrayHalt : List (Bool × (Json → Option Halt)) → List Json → Option Halt
  | [], _ => none
  | (required, _) :: fs, [] => if required then some .error else arrayHalt fs []
  | (_, read) :: fs, v :: r => Halt.andThen (read v) (arrayHalt fs r)

/-- A struct given as a table or an array. -/
def structHalt (f : RMap JsonScalar → Option Halt) (g : List Json → Option Halt) : Json → Option Halt
  | .map d => f d
  | .seq l => g l
  | _ => some .error

/-! ## Metadata -/

/-- The direct fields of `IntegrationMetadataUnit` (integration/unit.rs:5-14). -/
def unitFields (O : DocOps) (k : Str) : Option (Json → Option Halt) :=
  if k = c!"created_at" then some fun v => match v with
    | .null => none
    | v => textHalt (fun s => Halt.unless (O.parseDate s).isSome) v
  else if k = c!"enc" then some (textHalt fun _ => none)
  else none

/-- The fields of the flattened config (age.rs:141-146, aws_kms/key_id.rs:9-18). -/
def keyIdFields (O : DocOps) (k : Kind) (name : Str) : Option (Json → Option Halt) :=
  match k with
  | .age => if name = c!"recipient" then some (textHalt fun s => Halt.unless (O.A.parseRecipient s).isSome) else none
  | .kms => if name = c!"aws_profile" then some (textHalt fun _ => none)
    else if name = c!"arn" then some (textHalt fun s => Halt.ofKey (KeyArn.parse O.arn s))
    else none

/-- The required ones. -/
def keyIdRequired : Kind → List Str
  | .age => [c!"recipient"]
  | .kms => [c!"aws_profile", c!"arn"]

/-- `Deserialize for IntegrationMetadataUnit`. -/
def unitHalt (O : DocOps) (k : Kind) (d : RMap JsonScalar) : Option Halt :=
  Halt.andThen (fieldsHalt (unitFields O) [] d) <| Halt.andThen (requiredHalt [c!"enc"] d) <|
    Halt.andThen (fieldsHalt (keyIdFields O k) [] d) (requiredHalt (keyIdRequired k) d)

/-- `Deserialize for IntegrationMetadata` (integration/core.rs:6-15), flattened. -/
def integrationFields (O : DocOps) (k : Str) : Option (Json → Option Halt) :=
  if k = c!"kms" then some (listHalt (mapHalt (unitHalt O .kms)))
  else if k = c!"age" then some (listHalt (mapHalt (unitHalt O .age)))
  else none

/-- The direct fields of `RopsFileMetadata` (metadata/core.rs:12-25). -/
def metadataFields (O : DocOps) (C : Cipher) (k : Str) : Option (Json → Option Halt) :=
  if k = c!"lastmodified" then some (textHalt fun s => Halt.unless (O.parseDate s).isSome)
  else if k = c!"mac" then some (textHalt fun s => Halt.ofEnc (EncValue.parse C s))
  else if k = c!"mac_only_encrypted" then some fun v => match v with
    | .null => none
    | .leaf (.bool _) => none
    | _ => some .error
  else none

/-- `Deserialize for RopsFileMetadata`; the flattened setting of partial encryption cannot
fail. -/
def metadataHalt (O : DocOps) (C : Cipher) (d : RMap JsonScalar) : Option Halt :=
  Halt.andThen (fieldsHalt (metadataFields O C) [] d) <|
    Halt.andThen (requiredHalt [c!"lastmodified", c!"mac"] d) (fieldsHalt (integrationFields O) [] d)

/-- Whether reading a file (file/core.rs:8-19) ends with a panic: the metadata is the first
entry "sops", every other entry is put aside. -/
def EncFile.docPanics (D : DocFormat) (O : DocOps) (C : Cipher) (d : D.F.Map) : Bool :=
  match D.firstSops d with
  | some md => metadataHalt O C md == some .panic
  | none => false

/-- See `EncFile.docPanics`. -/
def EncFile.textPanics {D : DocFormat} (T : TextOps D) (O : DocOps) (C : Cipher) (s : Str) : Bool :=
  match T.parse s with
  | some d => EncFile.docPanics D O C d
  | none => false

/-! ## Configuration -/

/-- The field `age` of `IntegrationKeys`. -/
def ageKeysHalt (O : DocOps) : Json → Option Halt :=
  listHalt (textHalt fun s => Halt.unless (O.A.parseRecipient s).isSome)

/-- The field `aws_kms`. -/
def kmsKeysHalt (O : DocOps) : Json → Option Halt :=
  listHalt (textHalt fun s => Halt.ofKey (AwsKeyId.parse O.arn s))

/-- `Deserialize for IntegrationKeys` (crates/cli/src/integration_keys.rs:14-30). -/
def keysFields (O : DocOps) (k : Str) : Option (Json → Option Halt) :=
  if k = c!"age" then some (ageKeysHalt O)
  else if k = c!"aws_kms" then some (kmsKeysHalt O)
  else none

/-- See `keysFields`; as a table or an array. -/
def keysHalt (O : DocOps) : Json → Option Halt :=
  structHalt (fieldsHalt (keysFields O) []) (arrayHalt [(false, ageKeysHalt O), (false, kmsKeysHalt O)])

/-- `Deserialize for CreationRule` (config/creation_rule.rs:7-19). -/
def ruleFields (O : DocOps) (k : Str) : Option (Json → Option Halt) :=
  if k = c!"path_regex" then some (textHalt fun s => Halt.unless (O.regexOk s))
  else if k = c!"mac_only_encrypted" then some fun v => Halt.unless v.asBool.isSome
  else if k = c!"partial_encryption" then some fun v => Halt.unless (PartialEncryption.ofTable O v).isSome
  else if k = c!"integration_keys" then some (keysHalt O)
  else none

/-- See `ruleFields`. -/
def ruleHalt (O : DocOps) (d : RMap JsonScalar) : Option Halt :=
  Halt.andThen (fieldsHalt (ruleFields O) [] d) (requiredHalt [c!"path_regex"] d)

/-- See `ruleFields`; as an array. -/
def ruleArrayHalt (O : DocOps) : List Json → Option Halt :=
  arrayHalt [(true, textHalt fun s => Halt.unless (O.regexOk s)), (true, fun v => Halt.unless v.asBool.isSome),
    (true, fun v => Halt.unless (PartialEncryption.ofTable O v).isSome), (false, keysHalt O)]

/-- `Deserialize for Config` (config/core.rs:7-11). -/
def configFields (O : DocOps) (k : Str) : Option (Json → Option Halt) :=
  if k = c!"creation_rules" then some (listHalt (structHalt (ruleHalt O) (ruleArrayHalt O))) else none

/-- See `configFields`. -/
def configHalt (O : DocOps) (d : RMap JsonScalar) : Option Halt :=
  Halt.andThen (fieldsHalt (configFields O) [] d) (requiredHalt [c!"creation_rules"] d)

/-- Whether reading a configuration ends with a panic. (`toml` parses a whole text before any
of its values is read.) -/
def Config.textPanics (T : TextOps .toml) (O : DocOps) (s : Str) : Bool :=
  match T.parse s with
  | some d => configHalt O (Toml.mapToDoc d) == some .panic
  | none => false

end Rops
