import Verif.Spec.File
/-!
# Specification vocabulary for what an encrypted file shows

What somebody without the data key can see of an encrypted file.
-/

namespace Rops.Spec

/-- Under this key the ciphertext and the tag tell nothing about the plaintext but its
length: they are the same for all plaintexts of one length. (An ideal cipher for somebody
who cannot decrypt; such a cipher has no decryption, so this is not combined with
`Cipher.Lawful`.) -/
def Opaque (C : Cipher) (key : Bytes) : Prop :=
  ∀ n p q a, p.length = q.length → C.encrypt n key p a = C.encrypt n key q a

/-- Ciphertexts are as long as their plaintexts, as those of a stream cipher like AES-GCM. -/
def LengthPreserving (C : Cipher) : Prop :=
  ∀ {n k p a c t}, C.encrypt n k p a = some (c, t) → c.length = p.length

/-- All digests have the same length. -/
def FixedSize (H : Hasher) : Prop := ∀ s t, (H.finalize s).length = (H.finalize t).length

/-- Two values at the same keys that may not be told apart: if they are stored in plaintext
they are equal, otherwise they have the same type and the same number of bytes. -/
def LooksLike (rx : RegexMatch) (cfg : Option PartialEncryption) (a b : List Str × Value) : Prop :=
  a.1 = b.1 ∧ a.2.variant = b.2.variant ∧ (plainBytes a.2).length = (plainBytes b.2).length ∧
    (Plain rx cfg a.1 → a.2 = b.2)

/-- Two maps that may not be told apart: keys, order, nesting, nulls and lengths of sequences
are the same, and the values look alike. -/
def Alike (rx : RegexMatch) (cfg : Option PartialEncryption) (m n : RMap Value) : Prop :=
  shapeMap m = shapeMap n ∧ Zip (LooksLike rx cfg) (leaves m) (leaves n)

/-- The saved nonce for the one value, if any, is the one for the other. -/
def SameNonce (s : SavedNonces) (a b : List Str × Value) : Prop :=
  s.get (pathText a.1) a.2 = s.get (pathText b.1) b.2

end Rops.Spec
