import Verif.Model.AesGcm
import Verif.Model.Sha512
/-!
# Vocabulary for AES-256-GCM and SHA-512
-/

namespace Rops.Spec

/-- Bytes added bit by bit. -/
def xorBytes (a b : Bytes) : Bytes := List.zipWith (· ^^^ ·) a b

/-- The blocks of 16 bytes of a text as numbers, the last one padded with zeros. -/
def blocks16 (b : Bytes) : List Nat := gcmBlocks b.length b

/-- The hash key of GCM: the encryption of zeros. -/
def hashKey (key : Bytes) : Nat := aesBlock (aesKeys key) 0

/-- The product of blocks: the field with 2^128 elements, whose 1 is `2 ^ 127`. -/
def mult (x y : Nat) : Nat := gcmMul x 128 0 y

/-- A polynomial over the field of GCM, given by its coefficients from the highest one down to the one of
degree 1, at a point. -/
def polynomial (coefficients : List Nat) (h : Nat) : Nat := ghash h coefficients

/-- Texts of the same length as polynomials, added. -/
def blockDifference (a b : List Nat) : List Nat := List.zipWith (· ^^^ ·) a b

/-- What is hashed for the tag of a text: the associated data, the encrypted text, and how long they are. -/
def tagged (aad data : Bytes) : List Nat := blocks16 aad ++ blocks16 data ++ [(8 * aad.length) <<< 64 ||| 8 * data.length]

/-- No more than `n` numbers are so. -/
def AtMost (n : Nat) (p : Nat → Prop) : Prop := ∀ l : List Nat, l.Nodup → (∀ x ∈ l, p x) → l.length ≤ n

/-- A hash key that explains the difference of two tags, given the coefficients. -/
def Explains (coefficients : List Nat) (difference : Bytes) (h : Nat) : Prop :=
  h < 2 ^ 128 ∧ natBytes 16 (polynomial coefficients h) = difference

/-- A hash key for which two texts with their tags are both accepted: it explains the difference of the tags. -/
def Convinced (aad data tag aad' data' tag' : Bytes) (h : Nat) : Prop :=
  h < 2 ^ 128 ∧ natBytes 16 (polynomial (tagged aad data) h ^^^ polynomial (tagged aad' data') h) = xorBytes tag tag'

/-- A text is split into pieces of 128 bytes. -/
inductive Pieces : Bytes → List Bytes → Prop
  | nil : Pieces [] []
  | cons {b l p} : b.length = 128 → Pieces l p → Pieces (b ++ l) (b :: p)

/-- The padded message of FIPS 180-4, 5.1.2: a bit 1, zeros, and the length in bits as 16 bytes, to a multiple of
128 bytes. -/
def Padded (m padded : Bytes) : Prop :=
  ∃ z, padded = m ++ [0x80] ++ List.replicate z 0 ++ natBytes 16 (8 * m.length) ∧ z < 128 ∧ padded.length % 128 = 0

/-- The eight words one after the other. -/
def shaText (w : ShaWords) : Bytes := [w.a, w.b, w.c, w.d, w.e, w.f, w.g, w.h].flatMap (natBytes 8)

/-- The product in the field of 256 elements (FIPS 197, 4.2), from the bit `i` of `y` down. -/
def gf256From (x y : Nat) : Nat → Nat → Nat
  | 0, z => z
  | i + 1, z => gf256From x y i (xtime z ^^^ if y.testBit i then x else 0)

@[inherit_doc gf256From] def gf256 (x y : Nat) : Nat := gf256From x y 8 0

/-- A byte rotated to the left. -/
def rotl8 (n x : Nat) : Nat := (x <<< n ||| x >>> (8 - n)) % 256

/-- The inverse in the field, as a power. -/
def gf256Inv (x : Nat) : Nat :=
  let p2 := gf256 x x
  let p4 := gf256 p2 p2
  let p8 := gf256 p4 p4
  let p16 := gf256 p8 p8
  let p32 := gf256 p16 p16
  let p64 := gf256 p32 p32
  gf256 p2 (gf256 p4 (gf256 p8 (gf256 p16 (gf256 p32 (gf256 p64 (gf256 p64 p64))))))

end Rops.Spec
