import Verif.Model.Text
/-!
# Cryptographic primitives

The AEAD cipher and the hash are parameters of the model: AES-256-GCM
(crates/lib/src/cryptography/cipher/aes256_gcm.rs) and SHA-512
(crates/lib/src/cryptography/hasher/sha512.rs) are in `AesGcm.lean` and `Sha512.lean`.
-/

namespace Rops

/-- The `Cipher` trait (crates/lib/src/cryptography/cipher/core.rs:7-30).
`encrypt` and `decrypt` work in place in the code; here they return the buffer
(and the tag). `none` is a cipher error. Arguments: nonce, data key, buffer,
associated data (, tag). -/
structure Cipher where
  /-- `NAME` -/
  name : Str
  /-- `NonceSize` -/
  nonceSize : Nat
  /-- `AuthorizationTagSize` -/
  tagSize : Nat
  encrypt (nonce key plain aad : Bytes) : Option (Bytes × Bytes)
  decrypt (nonce key data aad tag : Bytes) : Option Bytes

/-- What is assumed of a cipher: decryption inverts encryption, tags have the size
fixed by their type, the name has no ',' (it is "AES256_GCM",
cipher/aes256_gcm.rs:16). Nothing about secrecy or unforgeability. -/
structure Cipher.Lawful (C : Cipher) : Prop where
  decrypt_encrypt : ∀ {n k p a c t}, C.encrypt n k p a = some (c, t) → C.decrypt n k c a t = some p
  tag_length : ∀ {n k p a c t}, C.encrypt n k p a = some (c, t) → t.length = C.tagSize
  name_no_comma : ',' ∉ C.name

/-- The encryption of the cipher never fails. AES-GCM encryption fails only for
buffers of more than 64 GiB. -/
def Cipher.Total (C : Cipher) : Prop := ∀ n k p a, (C.encrypt n k p a).isSome

/-- The `Hasher` trait (crates/lib/src/cryptography/hasher/core.rs): a streaming
hash with an abstract state; `update` is fed pieces, `finalize` gives the digest. -/
structure Hasher where
  State : Type
  init : State
  update : State → Bytes → State
  finalize : State → Bytes

/-- The digest of a byte string fed at once. -/
def Hasher.digest (H : Hasher) (b : Bytes) : Bytes := H.finalize (H.update H.init b)

/-- A hasher hashes a stream: feeding pieces is feeding their concatenation, and
feeding nothing changes nothing. -/
structure Hasher.Streaming (H : Hasher) : Prop where
  update_append : ∀ s a b, H.update (H.update s a) b = H.update s (a ++ b)
  update_nil : ∀ s, H.update s [] = s

end Rops
