import Verif.Spec.Aes
import Mathlib.RingTheory.AdjoinRoot
import Mathlib.Data.ZMod.Basic
/-!
# Galois/Counter Mode of SP 800-38D

Written from the standard: blocks are polynomials over the field with two elements, as in Mathlib. The first counter block
is for nonces that have not 12 bytes, as those of rops.
-/

namespace Rops.Spec
open Polynomial

/-- Bit `i` of a block, from the highest bit of the first byte on. -/
def blockBit (b : Bytes) (i : Nat) : Bool := (b.getD (i / 8) 0).toNat.testBit (7 - i % 8)

/-- A block as a polynomial (6.3): bit `i` is the coefficient of degree `i`. -/
noncomputable def blockPoly (b : Bytes) : (ZMod 2)[X] := ∑ i ∈ Finset.range 128, if blockBit b i then X ^ i else 0

/-- What polynomials are taken modulo (6.3). -/
noncomputable def gcmModulus : (ZMod 2)[X] := X ^ 128 + X ^ 7 + X ^ 2 + X + 1

/-- `GHASH` (6.4): the polynomial whose coefficients are the blocks, at the hash key. -/
def Ghash (h : Bytes) (blocks : List Bytes) (y : Bytes) : Prop :=
  y.length = 16 ∧ gcmModulus ∣ blockPoly y -
    ∑ i ∈ Finset.range blocks.length, blockPoly (blocks.getD i []) * blockPoly h ^ (blocks.length - i)

/-- A text in blocks, the last one filled up with zeros. -/
def Chunks (b : Bytes) (blocks : List Bytes) : Prop :=
  (∀ x ∈ blocks, x.length = 16) ∧ ∃ z < 16, blocks.flatten = b ++ List.replicate z 0

/-- Bytes as a number, most significant first. -/
def bytesNumber (b : Bytes) : Nat := b.foldl (fun n x => n * 256 + x.toNat) 0

/-- Two lengths, in bits, as a block. -/
def LengthBlock (m n : Nat) (l : Bytes) : Prop :=
  l.length = 16 ∧ bytesNumber (l.take 8) = 8 * m ∧ bytesNumber (l.drop 8) = 8 * n

/-- `inc32` (6.2) applied `m` times: the last four bytes count. -/
def CounterBlock (j : Bytes) (m : Nat) (c : Bytes) : Prop :=
  c.length = 16 ∧ c.take 12 = j.take 12 ∧ bytesNumber (c.drop 12) = (bytesNumber (j.drop 12) + m) % 2 ^ 32

/-- The first counter block of a nonce (7.1, step 2). -/
def FirstBlock (h nonce j : Bytes) : Prop :=
  ∃ blocks l, Chunks nonce blocks ∧ LengthBlock 0 nonce.length l ∧ Ghash h (blocks ++ [l]) j

/-- `GCTR` (6.5) from the block after `j`: byte for byte. -/
def Streamed (key j p c : Bytes) : Prop :=
  c.length = p.length ∧ ∀ i < p.length, ∃ b k, CounterBlock j (i / 16 + 1) b ∧ AesEncrypts key b k ∧
    c.getD i 0 = p.getD i 0 ^^^ k.getD (i % 16) 0

/-- The tag (7.1, steps 4 to 6). -/
def Tagged (key h j a c t : Bytes) : Prop :=
  ∃ as cs l s e, Chunks a as ∧ Chunks c cs ∧ LengthBlock a.length c.length l ∧ Ghash h (as ++ cs ++ [l]) s ∧
    AesEncrypts key j e ∧ t.length = 16 ∧ ∀ i < 16, t.getD i 0 = s.getD i 0 ^^^ e.getD i 0

/-- `GCM-AE` (7.1) with a tag of 16 bytes: the plaintext `p` with the associated data `a` gives `c` and the tag `t`. -/
def GcmEncrypts (key nonce p a c t : Bytes) : Prop :=
  ∃ h j, AesEncrypts key (List.replicate 16 0) h ∧ FirstBlock h nonce j ∧ Streamed key j p c ∧ Tagged key h j a c t

end Rops.Spec
