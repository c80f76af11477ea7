import Verif.Model.Cli
/-!
# Error messages

Models the texts of the errors, which `main` (crates/cli/src/main.rs) returns as an
`anyhow::Error`: on failure the text of the error and the texts of all its sources are printed
to stderr. A source is a field marked `#[from]`; `#[error(transparent)]` has the text and the
sources of its field.

Texts made by libraries are parameters. Of their arguments those are left out that the model
does not have; none of them is made from private keys or decrypted values, except that the
errors of `from_utf8` and `parse` say at which position and why they stopped.
-/

namespace Rops

/-- Texts of the errors of libraries. -/
structure Wording where
  /-- `std::str::Utf8Error` -/
  utf8 : Str
  /-- `std::num::ParseIntError` -/
  parseInt : Str
  /-- `std::num::ParseFloatError` -/
  parseFloat : Str
  /-- errors of the cipher -/
  cipher : Str
  /-- `base64::DecodeError` for a text -/
  base64 : Str → Str
  /-- the YAML text of a key that is no string -/
  yamlKey : Str
  /-- wrapped errors of `IntegrationError::Encryption`, `Decryption`, `KeyIdParsing` -/
  encryption : Str
  decryption : Str
  keyId : Str
  /-- the errors of the age crate for a text that is no private key -/
  ageKey : Str
  io : Str
  fromUtf8 : Str
  /-- `Debug` of an `OsString` -/
  osString : Bytes → Str
  usage : Str
  config : Str
  /-- why a text is no map of its format; such errors may quote the text -/
  parse : Str → Str
  editor : Str

/-- The text of an error and those of its sources. -/
structure Report where
  text : Str
  causes : List Str
deriving DecidableEq, Repr

/-- Everything that is printed. -/
def Report.lines (r : Report) : List Str := r.text :: r.causes

/-- An error whose text is `pre` followed by the text of the field `{0}`, its source. -/
def Report.wrap (pre : Str) (r : Report) : Report := { text := pre ++ r.text, causes := r.lines }

/-- An error with a fixed text and a source. -/
def Report.under (text : Str) (r : Report) : Report := { text, causes := r.lines }

/-- The elements after the first in `{:?}` of a byte vector. -/
def debugRest : Bytes → Str
  | [] => []
  | b :: r => c!", " ++ Nat.toDigits 10 b.toNat ++ debugRest r

/-- `{:?}` of a byte vector. -/
def debugBytes : Bytes → Str
  | [] => c!"[]"
  | b :: r => '[' :: Nat.toDigits 10 b.toNat ++ debugRest r ++ [']']

/-- `RopsValueFromBytesError` (crates/lib/src/file/map/value/core.rs:87-97). -/
def Value.FromBytesError.report (W : Wording) : Value.FromBytesError → Report
  | .utf8 => .wrap c!"unable to validate bytes as UTF-8: " ⟨W.utf8, []⟩
  | .boolean b => ⟨c!"invalid byte representation for boolean values: " ++ debugBytes b, []⟩
  | .integer => .wrap c!"integer parse error: " ⟨W.parseInt, []⟩
  | .float => .wrap c!"float parse error: " ⟨W.parseFloat, []⟩

/-- `DecryptRopsValueError` (crates/lib/src/file/map/value/encrypted.rs:16-22). -/
def DecryptValueError.report (W : Wording) : DecryptValueError → Report
  | .cipher => ⟨c!"encountered cipher error: " ++ W.cipher, []⟩
  | .fromBytes e => .wrap c!"unable convert value from decrypted bytes: " (e.report W)

/-- The argument of `Missing` (encrypted.rs:73-109). -/
def EncPart.text : EncPart → Str
  | .encPrefix => c!"ENC prefix"
  | .openingBracket => c!"opening ('[') bracket"
  | .closingBracket => c!"closing (']') bracket"
  | .cipher => c!"cipher"
  | .data => c!"'data' key-value pair"
  | .iv => c!"'iv' (initialization vector) key-value pair"
  | .tag => c!"'tag' (authorization tag) key-value pair"
  | .type => c!"'type' (value type) key-value pair"

/-- `EncryptedRopsValueFromStrError` (encrypted.rs:24-34) and `Base64DecodeError`
(crates/lib/src/base64utils.rs:3-5). Panics print their own text, which is left out. -/
def EncParseError.report (W : Wording) (C : Cipher) : EncParseError → Report
  | .missing p => ⟨c!"missing " ++ p.text, []⟩
  | .invalidCipher s => ⟨c!"invalid cipher: " ++ s ++ c!", expected: " ++ C.name, []⟩
  | .variant s => ⟨c!"unable to parse value type: " ++ s, []⟩
  | .base64 s => ⟨c!"unable to base64 decode " ++ s ++ c!", reason: " ++ W.base64 s, []⟩
  | .panic => ⟨[], []⟩

/-- `FormatToInternalMapError` (crates/lib/src/file/format/map.rs:19-29). -/
def FormatError.report (W : Wording) (C : Cipher) : FormatError → Report
  | .nonStringKey => ⟨c!"only string keys are supported, found: " ++ W.yamlKey, []⟩
  | .integerOutOfRange n =>
    ⟨c!"integer out of range, allowed values must fit inside an i64, found: " ++ Nat.toDigits 10 n.toNat, []⟩
  | .encryptedValue e => .wrap c!"unable to parse encrypted value components: " (e.report W C)
  | .plaintextWhenEncrypted => ⟨c!"encountered plaintext value when it should have been encrypted", []⟩

/-- `IntegrationError` (crates/lib/src/integration/error.rs:9-26), with the text of
`AwsPrivateKey::from_str` (crates/lib/src/integration/aws_kms/private_key.rs:27-34). -/
def IntegrationError.report (W : Wording) : IntegrationError → Report
  | .encryption => ⟨c!"encryption error: " ++ W.encryption, []⟩
  | .decryption => ⟨c!"decryption error: " ++ W.decryption, []⟩
  | .keyIdParsing => ⟨c!"unable to parse key id string: " ++ W.keyId, []⟩
  | .privateKeyParsing none => ⟨c!"unnable to parse private key string: " ++ W.ageKey, []⟩
  | .privateKeyParsing (some (component, s)) =>
    ⟨c!"unnable to parse private key string: " ++ c!"invalid private key syntax, missing the " ++ component ++
      c!" component in: 'profile.aws_access_key_id.aws_secret_access_key', got: '" ++ s ++ c!"'", []⟩
  | .io => .wrap c!"io error during encryption/decryption: " ⟨W.io, []⟩
  | .utf8 => .under c!"unable to convert bytes into a UTF-8 string" ⟨W.fromUtf8, []⟩
  | .envVarNotUnicode b => ⟨c!"matched environment variable not valid UTF-8: " ++ W.osString b, []⟩
  | .noHomeDir => ⟨c!"unable to retrieve any home directory from the operating system", []⟩
  | .panic => ⟨[], []⟩

/-- `RopsFileMetadataDataKeyRetrievalError` (crates/lib/src/file/metadata/core.rs:35-41). -/
def RetrievalError.report (W : Wording) : RetrievalError → Report
  | .integration e => .under c!"integration error" (e.report W)
  | .missingDataKey =>
    ⟨c!"no data key retrieved from metadata, make sure at least one private integration key is present", []⟩

/-- `RopsFileMetadataDecryptError` (metadata/core.rs:27-33). -/
def MetadataDecryptError.report (W : Wording) : MetadataDecryptError → Report
  | .mac => ⟨c!"unable to decrypt MAC: " ++ W.cipher, []⟩
  | .retrieval e => .under c!"unable to retrieve data key" (e.report W)

/-- `RopsFileDecryptError` (crates/lib/src/file/error.rs:19-29). The text of `MacMismatch` has
its first field twice. -/
def FileDecryptError.report (W : Wording) (C : Cipher) : FileDecryptError → Report
  | .format e => .wrap c!"invalid encrypted map format; " (e.report W C)
  | .value e => .wrap c!"unable to decrypt map value: " (e.report W)
  | .metadata e => .under c!"unable to decrypt file metadata" (e.report W)
  | .macMismatch computed _ => ⟨c!"invalid MAC, computed " ++ computed ++ c!", stored " ++ computed, []⟩
  | .panic => ⟨[], []⟩

/-- `RopsFileEncryptError` (error.rs:5-17). -/
def FileEncryptError.report (W : Wording) (C : Cipher) : FileEncryptError → Report
  | .format e => .wrap c!"invalid decrypted map format: " (e.report W C)
  | .retrieval e => .wrap c!"unable to retrieve data key: " (e.report W)
  | .mapEncryption => ⟨c!"unable to encrypt map: " ++ W.cipher, []⟩
  | .metadataEncryption => ⟨c!"unable to encrypt metadata: " ++ W.cipher, []⟩
  | .panic => ⟨[], []⟩

/-- `RopsFileAddKeyError` (error.rs:31-37). -/
def AddKeyError.report (W : Wording) : AddKeyError → Report
  | .retrieval e => .under c!"unable to retrieve current data key" (e.report W)
  | .addKey e => .under c!"encountered error when attempting to add keys" (e.report W)

/-- `RopsFileBuilderError` (crates/lib/src/file/builder/core.rs:10-16) and
`IntegrationMetadataBuilderError` (builder/integration_metadata.rs:17-23). -/
def BuilderError.report (W : Wording) (C : Cipher) : BuilderError → Report
  | .encrypt e => e.report W C
  | .integration e => e.report W
  | .missingKeys => ⟨c!"no integration keys were set, without them it's impossible to store the private data key", []⟩

/-- `FormatToInternalMapError` as the error of `set_map` (crates/lib/src/file/core.rs:81-96). -/
def SetMapError.report (W : Wording) (C : Cipher) : SetMapError → Report
  | .format e => e.report W C
  | .panic => ⟨[], []⟩

/-- The errors of the program (crates/cli/src/error.rs:5-21 and the others that the commands
return). The text of `RopsFileFromStrError` (crates/lib/src/file/core.rs:63-67) leaves out its
field, which is no source either. -/
def CliError.report (W : Wording) (C : Cipher) : CliError → Report
  | .usage => ⟨W.usage, []⟩
  | .multipleInputs => ⟨c!"multiple inputs; received content from stdin when a file path was provided", []⟩
  | .missingInput => ⟨c!"missing input; neither a file path nor stdin were provided", []⟩
  | .foundNeither =>
    .wrap c!"unable to determine input format; " ⟨c!"found neither format nor file arguments", []⟩
  | .noFileExtension p =>
    .wrap c!"unable to determine input format; "
      ⟨c!"unable to determine file extension for " ++ p ++ c!" when no format argument was found", []⟩
  | .io => ⟨W.io, []⟩
  | .config => ⟨W.config, []⟩
  | .parse s => ⟨W.parse s, []⟩
  | .deserialize => ⟨c!"deserialize error", []⟩
  | .builder e => e.report W C
  | .decrypt e => e.report W C
  | .encrypt e => e.report W C
  | .addKeys e => e.report W
  | .removeKey e => e.report W
  | .setMap e => e.report W C
  | .editor => ⟨W.editor, []⟩
  | .panic => ⟨[], []⟩
  | .killed => ⟨[], []⟩

/-- What a command prints to stderr at its end. -/
def Proc.messages (P : Proc) (W : Wording) (r : Run) : List Str :=
  match r.2 with
  | .ok () => []
  | .error e => (e.report W P.env.C).lines

end Rops
