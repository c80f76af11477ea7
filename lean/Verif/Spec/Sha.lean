import Verif.Model.Text
/-!
# SHA-512 of FIPS 180-4

Written from the standard, without the definitions of the model. Words are vectors of 64 bits, the constants are given
by the roots of primes, the message schedule and the padding are conditions.
-/

namespace Rops.Spec

/-- A word (2.1). -/
abbrev ShaWord := BitVec 64

/-- The functions of 4.1.3. -/
def chooseWord (x y z : ShaWord) : ShaWord := (x &&& y) ^^^ (~~~x &&& z)
@[inherit_doc chooseWord] def majorityWord (x y z : ShaWord) : ShaWord := (x &&& y) ^^^ (x &&& z) ^^^ (y &&& z)
@[inherit_doc chooseWord] def bigSigma0 (x : ShaWord) : ShaWord := x.rotateRight 28 ^^^ x.rotateRight 34 ^^^ x.rotateRight 39
@[inherit_doc chooseWord] def bigSigma1 (x : ShaWord) : ShaWord := x.rotateRight 14 ^^^ x.rotateRight 18 ^^^ x.rotateRight 41
@[inherit_doc chooseWord] def smallSigma0 (x : ShaWord) : ShaWord := x.rotateRight 1 ^^^ x.rotateRight 8 ^^^ x >>> 7
@[inherit_doc chooseWord] def smallSigma1 (x : ShaWord) : ShaWord := x.rotateRight 19 ^^^ x.rotateRight 61 ^^^ x >>> 6

/-- The first primes. -/
def firstPrimes : List Nat := (List.range 410).filter fun k => decide (2 ≤ k ∧ ∀ d < k, 2 ≤ d → k % d ≠ 0)

/-- The first 64 bits of the fractional part of the `n`th root of `p`. -/
def FractionOfRoot (n p : Nat) (k : ShaWord) : Prop :=
  ∃ a, (a * 2 ^ 64 + k.toNat) ^ n ≤ p * 2 ^ (64 * n) ∧ p * 2 ^ (64 * n) < (a * 2 ^ 64 + k.toNat + 1) ^ n

/-- The constants (4.2.3): cube roots of the first eighty primes. -/
def ShaConstants (K : Nat → ShaWord) : Prop := ∀ t < 80, ∃ p, firstPrimes[t]? = some p ∧ FractionOfRoot 3 p (K t)

/-- The initial hash value (5.3.5): square roots of the first eight primes. -/
def ShaInitial (H : Nat → ShaWord) : Prop := ∀ t < 8, ∃ p, firstPrimes[t]? = some p ∧ FractionOfRoot 2 p (H t)

/-- A word of eight bytes, most significant first (3.1). -/
def wordOfBytes (b : Bytes) (t : Nat) : ShaWord :=
  (List.range 8).foldl (fun n i => n * 256 + BitVec.ofNat 64 (b.getD (8 * t + i) 0).toNat) 0

/-- The message schedule of a block (6.4.2, step 1). -/
structure Schedule (block : Bytes) (W : Nat → ShaWord) : Prop where
  start : ∀ t < 16, W t = wordOfBytes block t
  next : ∀ t, 16 ≤ t → t < 80 → W t = smallSigma1 (W (t - 2)) + W (t - 7) + smallSigma0 (W (t - 15)) + W (t - 16)

/-- The working variables `a` to `h` after `t` rounds (6.4.2, steps 2 and 3). -/
def workingVariables (K W H : Nat → ShaWord) : Nat → Nat → ShaWord
  | 0, i => H i
  | t + 1, i =>
    let v := workingVariables K W H t
    let t1 := v 7 + bigSigma1 (v 4) + chooseWord (v 4) (v 5) (v 6) + K t + W t
    let t2 := bigSigma0 (v 0) + majorityWord (v 0) (v 1) (v 2)
    if i = 0 then t1 + t2 else if i = 4 then v 3 + t1 else v (i - 1)

/-- One block takes a hash value to the next (6.4.2, step 4). -/
def HashStep (K : Nat → ShaWord) (H : Nat → ShaWord) (block : Bytes) (H' : Nat → ShaWord) : Prop :=
  ∃ W, Schedule block W ∧ ∀ i < 8, H' i = workingVariables K W H 80 i + H i

/-- The hash value after some blocks. -/
inductive HashSteps (K : Nat → ShaWord) : (Nat → ShaWord) → List Bytes → (Nat → ShaWord) → Prop
  | nil {H} : HashSteps K H [] H
  | cons {H H' H'' b p} : HashStep K H b H' → HashSteps K H' p H'' → HashSteps K H (b :: p) H''

/-- A padded message (5.1.2): the bit 1, zeros, and the length in bits as a number of 128 bits, to a multiple of 1024
bits. -/
def ShaPadded (m : Bytes) (blocks : List Bytes) : Prop :=
  (∀ b ∈ blocks, b.length = 128) ∧ ∃ z lengthBytes, z < 128 ∧ lengthBytes.length = 16 ∧
    lengthBytes.foldl (fun n x => n * 256 + x.toNat) 0 = 8 * m.length ∧
    blocks.flatten = m ++ [0x80] ++ List.replicate z 0 ++ lengthBytes

/-- The digest of a message (6.4): the eight words of the last hash value. -/
def Sha512Digest (m d : Bytes) : Prop :=
  d.length = 64 ∧ ∃ K H H' blocks, ShaConstants K ∧ ShaInitial H ∧ ShaPadded m blocks ∧ HashSteps K H blocks H' ∧
    ∀ t < 8, wordOfBytes d t = H' t

end Rops.Spec
