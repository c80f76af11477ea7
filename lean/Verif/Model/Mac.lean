import Verif.Model.Tree
import Verif.Model.Partial
import Verif.Model.Timestamp
/-!
# The message authentication code

Models crates/lib/src/file/metadata/mac/.
-/

namespace Rops

/-- `MAC_ENCRYPTED_ONLY_INIT_BYTES` (crates/lib/src/file/metadata/mac/decrypted.rs:7-10). -/
def macInitBytes : Bytes :=
  [0x8a, 0x3f, 0xd2, 0xad, 0x54, 0xce, 0x66, 0x52, 0x7b, 0x10, 0x34, 0xf3, 0xd1, 0x47, 0xbe, 0xb,
   0xb, 0x97, 0x5b, 0x3b, 0xf4, 0x4f, 0x72, 0xc6, 0xfd, 0xad, 0xec, 0x81, 0x76, 0xf2, 0x7d, 0x69]

/-- One upper case hexadecimal digit. -/
def hexDigit (n : Nat) : Char := if n < 10 then Char.ofNat (48 + n) else Char.ofNat (55 + n)

/-- `hex::encode_upper` (decrypted.rs:53). -/
def hexUpper (b : Bytes) : Str := b.flatMap fun x => [hexDigit (x.toNat / 16), hexDigit (x.toNat % 16)]

/-- The buffer of a `Mac` (decrypted.rs:23): the bytes of the hex text. -/
abbrev Mac := Bytes

/-- `MacOnlyEncryptedConfig` (mac/mac_only_encrypted.rs:4-7). -/
structure MacConfig where
  macOnlyEncrypted : Bool
  resolved : Resolved

/-- `MacOnlyEncryptedConfig::new` (mac_only_encrypted.rs:10-18). -/
def MacConfig.new (macOnlyEncrypted : Option Bool) (cfg : Option PartialEncryption) : MacConfig :=
  { macOnlyEncrypted := macOnlyEncrypted.getD false, resolved := Resolved.ofConfig cfg }

mutual
/-- `traverse_tree_recursive` (decrypted.rs:75-95). -/
def macTree (H : Hasher) (rx : RegexMatch) (c : MacConfig) : Tree Value → H.State → H.State
  | .seq l, h => macSeq H rx c l h
  | .map m, h => macMap H rx c m h
  | .null, h => h
  | .leaf v, h => if !(c.resolved.escape && c.macOnlyEncrypted) then H.update h v.asBytes else h
/-- The elements of a sequence (decrypted.rs:81-83). -/
def macSeq (H : Hasher) (rx : RegexMatch) (c : MacConfig) : List (Tree Value) → H.State → H.State
  | [], h => h
  | t :: r, h => macSeq H rx c r (macTree H rx c t h)
/-- `traverse_map_recursive` (decrypted.rs:58-73). The full key is resolved, unlike in
the encryption of maps. -/
def macMap (H : Hasher) (rx : RegexMatch) (c : MacConfig) : RMap Value → H.State → H.State
  | [], h => h
  | (k, t) :: r, h =>
    macMap H rx c r (macTree H rx { c with resolved := c.resolved.step rx k } t h)
end

/-- `Mac::compute` (decrypted.rs:44-53). -/
def Mac.compute (H : Hasher) (rx : RegexMatch) (c : MacConfig) (m : RMap Value) : Mac :=
  let h := if c.macOnlyEncrypted then H.update H.init macInitBytes else H.init
  utf8 (hexUpper (H.finalize (macMap H rx c m h)))

/-- `SavedMacNonce` (mac/saved_mac_nonce.rs:4). -/
structure SavedMacNonce where
  mac : Mac
  nonce : Bytes
deriving DecidableEq, Repr

/-- The nonce for the MAC: `SavedMacNonce::get_or_create` (saved_mac_nonce.rs:11-16) in
`encrypt_impl` (decrypted.rs:122-126). Returns the next position of the tape. -/
def Mac.nonceFor (tape : Nat → Bytes) (saved : Option SavedMacNonce) (mac : Mac) (i : Nat) : Bytes × Nat :=
  match saved with
  | some s => if s.mac = mac then (s.nonce, i) else (tape i, i + 1)
  | none => (tape i, i + 1)

/-- `Mac::encrypt` and `encrypt_with_saved_nonce` (decrypted.rs:99-141). The associated
data is the text of the last modified date. -/
def Mac.encrypt (C : Cipher) (tape : Nat → Bytes) (key : Bytes) (date : Timestamp)
    (saved : Option SavedMacNonce) (mac : Mac) (i : Nat) : Except Unit (EncValue × Nat) :=
  let (nonce, i) := Mac.nonceFor tape saved mac i
  match C.encrypt nonce key mac date.toBytes with
  | some (data, tag) => .ok ({ data, tag, nonce, variant := .string }, i)
  | none => .error ()

/-- `EncryptedMac::decrypt_impl` (mac/encrypted_mac.rs:38-53); the wrapped value is the
encrypted value. Also gives the saved nonce (encrypted_mac.rs:28-35). -/
def EncMac.decrypt (C : Cipher) (key : Bytes) (date : Timestamp) (e : EncValue) :
    Option (Mac × SavedMacNonce) :=
  match C.decrypt e.nonce key e.data date.toBytes e.tag with
  | some mac => some (mac, { mac, nonce := e.nonce })
  | none => none

end Rops
