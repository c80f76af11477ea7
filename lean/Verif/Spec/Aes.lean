import Verif.Model.Text
/-!
# The block cipher of FIPS 197

Written from the standard, without the definitions of the model: the state is a matrix of bytes, and the key expansion is
a condition on the words. Bytes are numbers below 256.
-/

namespace Rops.Spec

/-- The product of polynomials over the field with two elements. -/
def carryless (x y : Nat) : Nat := (List.range 8).foldl (fun z i => if y.testBit i then z ^^^ x <<< i else z) 0

/-- The rest of a polynomial of degree below 15 by x^8 + x^4 + x^3 + x + 1. -/
def byteRest (z : Nat) : Nat := [6, 5, 4, 3, 2, 1, 0].foldl (fun z i => if z.testBit (i + 8) then z ^^^ 0x11b <<< i else z) z

/-- The product of bytes (4.2). -/
def byteMul (x y : Nat) : Nat := byteRest (carryless x y)

/-- A power of a byte. -/
def bytePow (x : Nat) : Nat → Nat
  | 0 => 1
  | n + 1 => byteMul x (bytePow x n)

/-- The power `2 ^ n` of a byte. -/
def byteSquare (x : Nat) : Nat → Nat
  | 0 => x
  | n + 1 => byteMul (byteSquare x n) (byteSquare x n)

/-- The inverse (4.4), as the power 254 = 2 + 4 + ... + 128; it is 0 for 0 (C80_inverse). -/
def byteInverse (x : Nat) : Nat := [2, 3, 4, 5, 6, 7].foldl (fun p n => byteMul p (byteSquare x n)) (byteSquare x 1)

/-- Bit `i` of the affine transformation (5.1.1, equation 5.1). -/
def affineBit (b i : Nat) : Bool :=
  b.testBit i ^^ b.testBit ((i + 4) % 8) ^^ b.testBit ((i + 5) % 8) ^^ b.testBit ((i + 6) % 8) ^^ b.testBit ((i + 7) % 8) ^^
    Nat.testBit 0x63 i

/-- The S-box: the inverse, then the affine transformation. -/
def sbox (x : Nat) : Nat := (List.range 8).foldl (fun z i => z + if affineBit (byteInverse x) i then 2 ^ i else 0) 0

/-- A state (3.4): the byte in a row and a column. -/
abbrev AesState := Nat → Nat → Nat

/-- `SubBytes` (5.1.1). -/
def subBytes (s : AesState) : AesState := fun r c => sbox (s r c)

/-- `ShiftRows` (5.1.2). -/
def shiftRows (s : AesState) : AesState := fun r c => s r ((c + r) % 4)

/-- `MixColumns` (5.1.3). -/
def mixColumns (s : AesState) : AesState := fun r c =>
  byteMul 2 (s r c) ^^^ byteMul 3 (s ((r + 1) % 4) c) ^^^ s ((r + 2) % 4) c ^^^ s ((r + 3) % 4) c

/-- `AddRoundKey` (5.1.4); `w i r` is byte `r` of word `i` of the key schedule. -/
def addRoundKey (w : Nat → Nat → Nat) (round : Nat) (s : AesState) : AesState := fun r c => s r c ^^^ w (4 * round + c) r

/-- The state after the first key and `n` rounds (5.1). -/
def aesState (w : Nat → Nat → Nat) (s : AesState) : Nat → AesState
  | 0 => addRoundKey w 0 s
  | n + 1 => addRoundKey w (n + 1) (mixColumns (shiftRows (subBytes (aesState w s n))))

/-- `Cipher` (5.1) with 14 rounds, the last one without `MixColumns`. -/
def aesCipher (w : Nat → Nat → Nat) (s : AesState) : AesState :=
  addRoundKey w 14 (shiftRows (subBytes (aesState w s 13)))

/-- Byte `r` of the word that is added to the one eight before (5.2, `KeyExpansion` with a key of eight words). -/
def keyTemp (w : Nat → Nat → Nat) (i r : Nat) : Nat :=
  if i % 8 = 0 then sbox (w (i - 1) ((r + 1) % 4)) ^^^ if r = 0 then bytePow 2 (i / 8 - 1) else 0
  else if i % 8 = 4 then sbox (w (i - 1) r)
  else w (i - 1) r

/-- The words are the key schedule of a key (5.2): the key itself and 52 more. -/
structure KeyExpansion (key : Bytes) (w : Nat → Nat → Nat) : Prop where
  start : ∀ i < 8, ∀ r < 4, w i r = (key.getD (4 * i + r) 0).toNat
  next : ∀ i, 8 ≤ i → i < 60 → ∀ r < 4, w i r = w (i - 8) r ^^^ keyTemp w i r

/-- The bytes of a block in the state (3.4): column after column. -/
def blockState (b : Bytes) : AesState := fun r c => (b.getD (r + 4 * c) 0).toNat

/-- The encryption of a block. -/
structure AesEncrypts (key b c : Bytes) : Prop where
  length : c.length = 16
  bytes : ∃ w, KeyExpansion key w ∧ ∀ r < 4, ∀ k < 4, (c.getD (r + 4 * k) 0).toNat = aesCipher w (blockState b) r k

end Rops.Spec
