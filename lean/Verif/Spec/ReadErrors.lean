import Verif.Spec.Format
/-!
# Why encrypted documents are refused

Vocabulary for C30 and C55.
-/

namespace Rops.Spec

/-- The scalar can stand at the path of an encrypted document: at a plaintext path any that can be
read, elsewhere only the text of an encrypted value. -/
def EncScalar (C : Cipher) (rx : RegexMatch) (cfg : Option PartialEncryption) (p : List Str) (s : Scalar) : Prop :=
  (Plain rx cfg p → ∃ v, Reads s v) ∧ (¬ Plain rx cfg p → ∃ t e, s = .str t ∧ EncValue.parse C t = .ok e)

/-- Why a scalar is refused at a path of an encrypted document. -/
inductive Refused (C : Cipher) (rx : RegexMatch) (cfg : Option PartialEncryption) (p : List Str) : Scalar → FormatError → Prop
  /-- An integer in plaintext that does not fit. -/
  | range (n : Int) : Plain rx cfg p → ¬ (-2 ^ 63 ≤ n ∧ n < 2 ^ 63) →
      Refused C rx cfg p (.int n) (.integerOutOfRange (UInt64.ofNat n.toNat))
  /-- A text that is not one of an encrypted value. -/
  | text (t : Str) (e : EncParseError) : ¬ Plain rx cfg p → EncValue.parse C t = .error e →
      Refused C rx cfg p (.str t) (.encryptedValue e)
  /-- Anything else than a text. -/
  | plaintext (s : Scalar) : ¬ Plain rx cfg p → (∀ t, s ≠ .str t) → Refused C rx cfg p s .plaintextWhenEncrypted

/-- The first scalar that is refused is refused with the error. -/
def FirstRefusal (C : Cipher) (rx : RegexMatch) (cfg : Option PartialEncryption) (d : RMap Scalar) (e : FormatError) : Prop :=
  ∃ A p s B, leaves d = A ++ (p, s) :: B ∧ (∀ a ∈ A, EncScalar C rx cfg a.1 a.2) ∧ Refused C rx cfg p s e

end Rops.Spec
