import Verif.Spec.File
/-! What becomes of values at keys with ':', for C08. Encryption decides on the parts of the
keys after their last ':', the reader and the MAC decide on the whole keys. -/

namespace Rops.Spec

/-- Encryption stores the value in plaintext, the reader expects it encrypted. -/
def WronglyPlain (rx : RegexMatch) (cfg : Option PartialEncryption) (p : List Str) : Prop :=
  Plain rx cfg (p.map lastPart) ∧ ¬ Plain rx cfg p

/-- Encryption encrypts the value, the reader expects it in plaintext. -/
def WronglyEncrypted (rx : RegexMatch) (cfg : Option PartialEncryption) (p : List Str) : Prop :=
  ¬ Plain rx cfg (p.map lastPart) ∧ Plain rx cfg p

/-- The value read for a value: the same one, or, if it was encrypted wrongly, the text of its
encryption. -/
def MisreadAs (C : Cipher) (rx : RegexMatch) (key : Bytes) (cfg : Option PartialEncryption)
    (pv : List Str × Value) (pw : List Str × Value) : Prop :=
  pw.1 = pv.1 ∧ ((¬ WronglyEncrypted rx cfg pv.1 ∧ pw.2 = pv.2) ∨
    (WronglyEncrypted rx cfg pv.1 ∧ ∃ e, Seals C key pv.1 pv.2 e ∧ pw.2 = .string (encText C e)))

/-- The map read for a map: same keys, nesting and nulls, with such values. -/
def Misread (C : Cipher) (rx : RegexMatch) (key : Bytes) (cfg : Option PartialEncryption) (m m2 : RMap Value) : Prop :=
  shapeMap m2 = shapeMap m ∧ Zip (MisreadAs C rx key cfg) (leaves m) (leaves m2)

end Rops.Spec
