import Verif.Model.Text
/-!
# Key ids and private keys

Models crates/lib/src/integration/aws_kms/{key_arn,key_id,private_key}.rs and the
private key retrieval of crates/lib/src/integration/core.rs.
-/

namespace Rops

/-- `IntegrationError` (crates/lib/src/integration/error.rs:9-26). Of the wrapped errors only
what can show a private key is kept: the missing component and the whole text of an AWS key
(none for age keys, whose errors are fixed texts) and the bytes of an environment variable.
`panic` stands for a failed `expect` or `panic!`. -/
inductive IntegrationError where
  | encryption | decryption | keyIdParsing
  | privateKeyParsing (missing : Option (Str × Str))
  | io | utf8
  | envVarNotUnicode (b : Bytes)
  | noHomeDir
  | panic
deriving DecidableEq, Repr

/-- The validity checks of the `aws_arn` crate: `Identifier`, `AccountIdentifier` and
`ResourceIdentifier`. -/
structure ArnChecks where
  ident : Str → Bool
  account : Str → Bool
  resource : Str → Bool

/-- What is assumed of them: nothing valid is empty; identifiers have no ':' and no '/';
account ids have no ':'. -/
structure ArnChecks.Lawful (A : ArnChecks) : Prop where
  ident_ne : A.ident [] = false
  ident_chars : ∀ {s}, A.ident s = true → ':' ∉ s ∧ '/' ∉ s
  account_ne : A.account [] = false
  account_chars : ∀ {s}, A.account s = true → ':' ∉ s

/-- `AwsKeyResourceName` (crates/lib/src/integration/aws_kms/key_arn.rs:9-16). -/
structure KeyArn where
  partition : Option Str
  service : Str
  region : Str
  account : Option Str
  parentPath : Option Str
  keyId : Str
deriving DecidableEq, Repr

/-- Joins with ':' (`resource_parts.join(":")` in the `aws_arn` crate). -/
def joinColon : List Str → Str
  | [] => []
  | [x] => x
  | x :: y :: r => x ++ ':' :: joinColon (y :: r)

/-- An optional identifier: the empty text is `None`, an invalid one an error
(`aws_arn::ResourceName::from_str`). -/
def ArnChecks.optional (check : Str → Bool) (s : Str) : Except IntegrationError (Option Str) :=
  if s = [] then .ok none else if check s then .ok (some s) else .error .keyIdParsing

/-- `AwsKeyResourceName::from_str` (key_arn.rs:21-25), which parses a
`aws_arn::ResourceName` (library code, transcribed: at least six parts, the first is
"arn", the resource is the rest joined with ':') and then does `try_from`
(key_arn.rs:31-61): the resource is split at its last '/', the region is required. -/
def KeyArn.parse (A : ArnChecks) (s : Str) : Except IntegrationError KeyArn :=
  match splitOn ':' s with
  | arn :: p :: sv :: rg :: ac :: r0 :: rest =>
    if arn ≠ c!"arn" then .error .keyIdParsing
    else do
      let partition ← ArnChecks.optional A.ident p
      if !A.ident sv then .error .keyIdParsing
      let region ← ArnChecks.optional A.ident rg
      let account ← ArnChecks.optional A.account ac
      let resource := joinColon (r0 :: rest)
      if !A.resource resource then .error .keyIdParsing
      let (parent, keyId) ← match rsplitOnce '/' resource with
        | some (parent, id) =>
          if A.resource parent && A.ident id then Except.ok (some parent, id) else .error .panic
        | none => if A.ident resource then .ok (none, resource) else .error .panic
      match region with
      | some region => .ok { partition, service := sv, region, account, parentPath := parent, keyId }
      | none => .error .keyIdParsing
  | _ => .error .keyIdParsing

/-- `push_identifier` (key_arn.rs:84-87). -/
def pushIdent (s : Str) : Str := s ++ [':']

/-- `push_optional_identifier` (key_arn.rs:89-93). -/
def pushOptional : Option Str → Str
  | some s => pushIdent s
  | none => []

/-- `Display for AwsKeyResourceName` (key_arn.rs:63-95). -/
def KeyArn.toText (a : KeyArn) : Str :=
  c!"arn:" ++ pushOptional a.partition ++ pushIdent a.service ++ pushIdent a.region ++
    pushOptional a.account ++ (match a.parentPath with | some p => p ++ ['/'] | none => []) ++ a.keyId

/-- `AwsKeyId` (crates/lib/src/integration/aws_kms/key_id.rs:12-18). -/
structure AwsKeyId where
  profile : Str
  arn : KeyArn
deriving DecidableEq, Repr

/-- `Display for AwsKeyId` (key_id.rs:11). -/
def AwsKeyId.toText (k : AwsKeyId) : Str := k.profile ++ '.' :: k.arn.toText

/-- `AwsKeyId::from_str` (key_id.rs:23-35). -/
def AwsKeyId.parse (A : ArnChecks) (s : Str) : Except IntegrationError AwsKeyId :=
  match splitOnce '.' s with
  | none => .error .keyIdParsing
  | some (profile, rest) => match KeyArn.parse A rest with
    | .ok arn => .ok { profile, arn }
    | .error e => .error e

/-- `AwsPrivateKey` (crates/lib/src/integration/aws_kms/private_key.rs:9-13). -/
structure AwsPrivateKey where
  profile : Str
  id : Str
  secret : Str
deriving DecidableEq, Repr

/-- `Display for AwsPrivateKey` (private_key.rs:8). -/
def AwsPrivateKey.toText (k : AwsPrivateKey) : Str := k.profile ++ '.' :: k.id ++ '.' :: k.secret

/-- `AwsPrivateKey::from_str` (private_key.rs:18-46): the first three components. The error
has the name of the first missing component and the whole text. -/
def AwsPrivateKey.parse (s : Str) : Except IntegrationError AwsPrivateKey :=
  match splitOn '.' s with
  | profile :: id :: secret :: _ => .ok { profile, id, secret }
  | [_, _] => .error (.privateKeyParsing (some (c!"aws_secret_access_key", s)))
  | [_] => .error (.privateKeyParsing (some (c!"aws_access_key_id", s)))
  | [] => .error (.privateKeyParsing (some (c!"profile", s)))

/-! ## Private key retrieval -/

/-- Result of `std::env::var`. -/
inductive EnvVar where
  | notPresent
  | notUnicode (b : Bytes)
  | value (s : Str)
deriving DecidableEq, Repr

/-- A file as seen by `exists` and `read_to_string`. -/
inductive HostFile where
  | missing
  | unreadable
  | text (s : Str)
deriving DecidableEq, Repr

/-- The environment of the process. -/
structure Host where
  /-- `std::env::var` -/
  var : Str → EnvVar
  /-- `std::env::var_os` of the key file override as a path (also when not Unicode) -/
  varPath : Str → Option Str
  /-- `directories::BaseDirs::new().config_local_dir()` -/
  configDir : Option Str
  file : Str → HostFile

/-- `char::is_whitespace`: the Unicode property White_Space. -/
def isWhitespace (c : Char) : Bool :=
  let n := c.toNat
  (9 ≤ n && n ≤ 13) || n == 32 || n == 0x85 || n == 0xA0 || n == 0x1680 || (0x2000 ≤ n && n ≤ 0x200A) ||
    n == 0x2028 || n == 0x2029 || n == 0x202F || n == 0x205F || n == 0x3000

/-- `str::trim`. -/
def trim (s : Str) : Str := ((s.dropWhile isWhitespace).reverse.dropWhile isWhitespace).reverse

/-- Removes one carriage return at the end. -/
def stripCr (s : Str) : Str :=
  match stripSuffixChar '\r' s with
  | some t => t
  | none => s

/-- Pieces of `str::lines`: all but the last end in a newline, a last empty one is no line. -/
def linesOf : List Str → List Str
  | [] => []
  | [x] => if x = [] then [] else [x]
  | x :: y :: r => stripCr x :: linesOf (y :: r)

/-- `str::lines`. -/
def lines (s : Str) : List Str := linesOf (splitOn '\n' s)

/-- `iter.map(parse).collect::<Result<Vec<_>, _>>()`: the first error wins. -/
def mapResult {α β ε : Type} (f : α → Except ε β) : List α → Except ε (List β)
  | [] => .ok []
  | a :: r => match f a with
    | .error e => .error e
    | .ok b => match mapResult f r with
      | .error e => .error e
      | .ok bs => .ok (b :: bs)

/-- Upper case of an ASCII text (`str::to_uppercase` of an integration name). -/
def upper (s : Str) : Str := s.map Char.toUpper

/-- `private_key_env_var_name` (crates/lib/src/integration/core.rs:13-15). -/
def keyVarName (name : Str) : Str := c!"ROPS_" ++ upper name

/-- `private_key_file_path_override_env_var_name` (core.rs:17-19). -/
def keyFileVarName (name : Str) : Str := c!"ROPS_" ++ upper name ++ c!"_KEY_FILE"

/-- `private_keys_from_env` (core.rs:21-29). -/
def privateKeysFromEnv {κ : Type} (parse : Str → Except IntegrationError κ) (h : Host) (name : Str) :
    Except IntegrationError (List κ) :=
  match h.var (keyVarName name) with
  | .value s => mapResult parse (splitOn ',' s)
  | .notPresent => .ok []
  | .notUnicode b => .error (.envVarNotUnicode b)

/-- `private_keys_from_default_key_file` (core.rs:31-50); `dir/rops/name_keys` is the
default path. -/
def privateKeysFromFile {κ : Type} (parse : Str → Except IntegrationError κ) (h : Host) (name : Str) :
    Except IntegrationError (List κ) :=
  let path : Except IntegrationError Str := match h.varPath (keyFileVarName name) with
    | some p => .ok p
    | none => match h.configDir with
      | none => .error .noHomeDir
      | some d => .ok (d ++ c!"/rops/" ++ name ++ c!"_keys")
  match path with
  | .error e => .error e
  | .ok path => match h.file path with
    | .missing => .ok []
    | .unreadable => .error .io
    | .text s => mapResult parse (((lines s).map trim).filter (· ≠ []))

/-- `retrieve_private_keys` (core.rs:52-59). -/
def retrievePrivateKeys {κ : Type} (parse : Str → Except IntegrationError κ) (h : Host) (name : Str) :
    Except IntegrationError (List κ) :=
  match privateKeysFromEnv parse h name with
  | .error e => .error e
  | .ok a => match privateKeysFromFile parse h name with
    | .error e => .error e
    | .ok b => .ok (a ++ b)

end Rops
