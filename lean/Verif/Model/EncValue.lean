import Verif.Model.Base64
import Verif.Model.Value
import Verif.Model.Crypto
/-!
# Encrypted leaf values

Models crates/lib/src/file/map/value/encrypted.rs and the encryption of a value
in core.rs.
-/

namespace Rops

/-- `EncryptedRopsValue` (crates/lib/src/file/map/value/encrypted.rs:9-14). The
sizes of nonce and tag are fixed by types in the code; see `EncValue.Sized`. -/
structure EncValue where
  data : Bytes
  tag : Bytes
  nonce : Bytes
  variant : Variant
deriving DecidableEq, Repr

/-- The type level sizes of nonce and tag (cryptography/nonce.rs:8,
authorization_tag.rs:9-12). -/
structure EncValue.Sized (C : Cipher) (e : EncValue) : Prop where
  nonce_length : e.nonce.length = C.nonceSize
  tag_length : e.tag.length = C.tagSize

/-- `RopsValue::encrypt` (crates/lib/src/file/map/value/core.rs:43-59). The
associated data is the text of the key path. `none` is a cipher error. -/
def Value.encrypt (C : Cipher) (nonce key : Bytes) (path : Str) (v : Value) : Option EncValue :=
  match C.encrypt nonce key v.asBytes (utf8 path) with
  | some (data, tag) => some { data, tag, nonce, variant := v.variant }
  | none => none

/-- `DecryptRopsValueError` (encrypted.rs:16-22). -/
inductive DecryptValueError where
  | cipher
  | fromBytes (e : Value.FromBytesError)
deriving DecidableEq, Repr

/-- `EncryptedRopsValue::decrypt` (encrypted.rs:37-50). -/
def EncValue.decrypt (C : Cipher) (fl : FloatOps) (key : Bytes) (path : Str) (e : EncValue) :
    Except DecryptValueError Value :=
  match C.decrypt e.nonce key e.data (utf8 path) e.tag with
  | none => .error .cipher
  | some b => match Value.fromBytes fl b e.variant with
    | .ok v => .ok v
    | .error err => .error (.fromBytes err)

/-- `Display for EncryptedRopsValue` (encrypted.rs:53-65). -/
def EncValue.toText (C : Cipher) (e : EncValue) : Str :=
  c!"ENC[" ++ C.name
    ++ c!",data:" ++ Base64.encode e.data
    ++ c!",iv:" ++ Base64.encode e.nonce
    ++ c!",tag:" ++ Base64.encode e.tag
    ++ c!",type:" ++ e.variant.toText ++ c!"]"

/-- What part is missing (the texts of encrypted.rs:75-109). -/
inductive EncPart where
  | encPrefix | openingBracket | closingBracket | cipher | data | iv | tag | type
deriving DecidableEq, Repr

/-- `EncryptedRopsValueFromStrError` (encrypted.rs:24-34); `panic` is the panic of
the base64 slice decoder on a text longer than the buffer. -/
inductive EncParseError where
  | missing (p : EncPart)
  | invalidCipher (s : Str)
  | variant (s : Str)
  | base64 (s : Str)
  | panic
deriving DecidableEq, Repr

/-- One `key:value` component: `next().and_then(strip_prefix).ok_or(Missing)`
(encrypted.rs:88-109). -/
def component (part : EncPart) (pre : Str) : Option Str → Except EncParseError Str
  | none => .error (.missing part)
  | some s => match stripPrefix pre s with
    | none => .error (.missing part)
    | some r => .ok r

/-- Base64 text of a byte vector (cryptography/encrypted_data.rs:15-18). -/
def parseData (s : Str) : Except EncParseError Bytes :=
  match Base64.decode s with
  | some b => .ok b
  | none => .error (.base64 s)

/-- Base64 text of a fixed size buffer (cryptography/nonce.rs:34-37,
authorization_tag.rs:17-20). -/
def parseSlice (n : Nat) (s : Str) : Except EncParseError Bytes :=
  match Base64.decodeSlice n s with
  | .ok b => .ok b
  | .invalid => .error (.base64 s)
  | .panic => .error .panic

/-- The text between the brackets (encrypted.rs:73-79). -/
def encBody (input : Str) : Except EncParseError Str :=
  match stripPrefix c!"ENC" input with
  | none => .error (.missing .encPrefix)
  | some s => match stripPrefix c!"[" s with
    | none => .error (.missing .openingBracket)
    | some s => match stripSuffixChar ']' s with
      | none => .error (.missing .closingBracket)
      | some s => .ok s

/-- The components after the brackets are removed (encrypted.rs:82-117).
Components after the fifth are ignored. -/
def EncValue.parseComponents (C : Cipher) (parts : List Str) : Except EncParseError EncValue := do
  match parts with
  | [] => .error (.missing .cipher)
  | name :: parts =>
    if name ≠ C.name then .error (.invalidCipher name) else
    let data ← (component .data c!"data:" parts[0]?).bind parseData
    let nonce ← (component .iv c!"iv:" parts[1]?).bind (parseSlice C.nonceSize)
    let tag ← (component .tag c!"tag:" parts[2]?).bind (parseSlice C.tagSize)
    let ty ← component .type c!"type:" parts[3]?
    match Variant.parse ty with
    | none => .error (.variant ty)
    | some variant => .ok { data, tag, nonce, variant }

/-- `FromStr for EncryptedRopsValue` (encrypted.rs:67-119). -/
def EncValue.parse (C : Cipher) (input : Str) : Except EncParseError EncValue :=
  (encBody input).bind fun s => EncValue.parseComponents C (splitOn ',' s)

end Rops
