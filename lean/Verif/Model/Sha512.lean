import Verif.Model.Crypto
import Verif.Model.AesGcm
/-!
# SHA-512

crates/lib/src/cryptography/hasher/sha512.rs gives `Sha512` of the crate `sha2` to the `Hasher` trait. Here it is
modelled by its standard, FIPS 180-4. Words of 64 bits are natural numbers.
-/

namespace Rops

/-- The constants (4.2.3). -/
def shaConstants : List Nat :=
  [0x428a2f98d728ae22, 0x7137449123ef65cd, 0xb5c0fbcfec4d3b2f, 0xe9b5dba58189dbbc,
   0x3956c25bf348b538, 0x59f111f1b605d019, 0x923f82a4af194f9b, 0xab1c5ed5da6d8118,
   0xd807aa98a3030242, 0x12835b0145706fbe, 0x243185be4ee4b28c, 0x550c7dc3d5ffb4e2,
   0x72be5d74f27b896f, 0x80deb1fe3b1696b1, 0x9bdc06a725c71235, 0xc19bf174cf692694,
   0xe49b69c19ef14ad2, 0xefbe4786384f25e3, 0x0fc19dc68b8cd5b5, 0x240ca1cc77ac9c65,
   0x2de92c6f592b0275, 0x4a7484aa6ea6e483, 0x5cb0a9dcbd41fbd4, 0x76f988da831153b5,
   0x983e5152ee66dfab, 0xa831c66d2db43210, 0xb00327c898fb213f, 0xbf597fc7beef0ee4,
   0xc6e00bf33da88fc2, 0xd5a79147930aa725, 0x06ca6351e003826f, 0x142929670a0e6e70,
   0x27b70a8546d22ffc, 0x2e1b21385c26c926, 0x4d2c6dfc5ac42aed, 0x53380d139d95b3df,
   0x650a73548baf63de, 0x766a0abb3c77b2a8, 0x81c2c92e47edaee6, 0x92722c851482353b,
   0xa2bfe8a14cf10364, 0xa81a664bbc423001, 0xc24b8b70d0f89791, 0xc76c51a30654be30,
   0xd192e819d6ef5218, 0xd69906245565a910, 0xf40e35855771202a, 0x106aa07032bbd1b8,
   0x19a4c116b8d2d0c8, 0x1e376c085141ab53, 0x2748774cdf8eeb99, 0x34b0bcb5e19b48a8,
   0x391c0cb3c5c95a63, 0x4ed8aa4ae3418acb, 0x5b9cca4f7763e373, 0x682e6ff3d6b2b8a3,
   0x748f82ee5defb2fc, 0x78a5636f43172f60, 0x84c87814a1f0ab72, 0x8cc702081a6439ec,
   0x90befffa23631e28, 0xa4506cebde82bde9, 0xbef9a3f7b2c67915, 0xc67178f2e372532b,
   0xca273eceea26619c, 0xd186b8c721c0c207, 0xeada7dd6cde0eb1e, 0xf57d4f7fee6ed178,
   0x06f067aa72176fba, 0x0a637dc5a2c898a6, 0x113f9804bef90dae, 0x1b710b35131c471b,
   0x28db77f523047d84, 0x32caab7b40c72493, 0x3c9ebe0a15c9bebc, 0x431d67c49c100d4c,
   0x4cc5d4becb3e42b6, 0x597f299cfc657e2a, 0x5fcb6fab3ad6faec, 0x6c44198c4a475817]

/-- The working variables. -/
structure ShaWords where
  a : Nat
  b : Nat
  c : Nat
  d : Nat
  e : Nat
  f : Nat
  g : Nat
  h : Nat
deriving DecidableEq

/-- The initial hash value (5.3.5). -/
def shaInit : ShaWords :=
  ⟨0x6a09e667f3bcc908, 0xbb67ae8584caa73b, 0x3c6ef372fe94f82b, 0xa54ff53a5f1d36f1,
   0x510e527fade682d1, 0x9b05688c2b3e6c1f, 0x1f83d9abfb41bd6b, 0x5be0cd19137e2179⟩

/-- Addition of words. -/
def addWord (x y : Nat) : Nat := (x + y) % 2 ^ 64

/-- `ROTR` (3.2). -/
def rotr (n x : Nat) : Nat := x >>> n ||| (x <<< (64 - n)) % 2 ^ 64

/-- The functions of 4.1.3. -/
def shaSum0 (x : Nat) : Nat := rotr 28 x ^^^ rotr 34 x ^^^ rotr 39 x
@[inherit_doc shaSum0] def shaSum1 (x : Nat) : Nat := rotr 14 x ^^^ rotr 18 x ^^^ rotr 41 x
@[inherit_doc shaSum0] def shaSigma0 (x : Nat) : Nat := rotr 1 x ^^^ rotr 8 x ^^^ x >>> 7
@[inherit_doc shaSum0] def shaSigma1 (x : Nat) : Nat := rotr 19 x ^^^ rotr 61 x ^^^ x >>> 6
@[inherit_doc shaSum0] def shaCh (x y z : Nat) : Nat := (x &&& y) ^^^ ((x ^^^ (2 ^ 64 - 1)) &&& z)
@[inherit_doc shaSum0] def shaMaj (x y z : Nat) : Nat := (x &&& y) ^^^ (x &&& z) ^^^ (y &&& z)

/-- One round (6.4.2, step 3), with the constant and the word of the message schedule. -/
def ShaWords.round (s : ShaWords) (k w : Nat) : ShaWords :=
  let t1 := addWord (s.h + shaSum1 s.e) (shaCh s.e s.f s.g + k + w)
  ⟨addWord t1 (shaSum0 s.a + shaMaj s.a s.b s.c), s.a, s.b, s.c, addWord s.d t1, s.e, s.f, s.g⟩

/-- The word that comes after sixteen of the message schedule (6.4.2, step 1). -/
def nextWord : List Nat → Nat
  | [w0, w1, _, _, _, _, _, _, _, w9, _, _, _, _, w14, _] => addWord (shaSigma1 w14 + w9) (shaSigma0 w1 + w0)
  | _ => 0

/-- The rounds, with the next sixteen words of the message schedule. -/
def shaRounds : List Nat → List Nat → ShaWords → ShaWords
  | [], _, s => s
  | _, [], s => s
  | k :: ks, w :: ws, s => shaRounds ks (ws ++ [nextWord (w :: ws)]) (s.round k w)

/-- The words of a block of 128 bytes; `n` is the length at most. -/
def shaBlock : Nat → Bytes → List Nat
  | 0, _ => []
  | n + 1, b => beNat (b.take 8) :: shaBlock n (b.drop 8)

/-- The hash value after a block (6.4.2). -/
def ShaWords.compress (s : ShaWords) (block : Bytes) : ShaWords :=
  let t := shaRounds shaConstants (shaBlock 16 block) s
  ⟨addWord s.a t.a, addWord s.b t.b, addWord s.c t.c, addWord s.d t.d, addWord s.e t.e, addWord s.f t.f, addWord s.g t.g, addWord s.h t.h⟩

/-- What a hasher keeps: the hash value, the bytes that are no full block yet, and how many there were. -/
structure ShaState where
  words : ShaWords
  rest : Bytes
  count : Nat

/-- All full blocks are hashed; `n` is the length at most. -/
def absorb : Nat → ShaWords → Bytes → ShaWords × Bytes
  | 0, s, b => (s, b)
  | n + 1, s, b => if b.length < 128 then (s, b) else absorb n (s.compress (b.take 128)) (b.drop 128)

/-- `update` of `Sha512`. -/
def ShaState.update (s : ShaState) (b : Bytes) : ShaState :=
  let r := absorb (s.rest ++ b).length s.words (s.rest ++ b)
  ⟨r.1, r.2, s.count + b.length⟩

/-- The padding of a message (5.1.2). -/
def shaPadding (rest : Bytes) (count : Nat) : Bytes :=
  0x80 :: List.replicate ((239 - rest.length) % 128) 0 ++ natBytes 16 (8 * count)

/-- `finalize` of `Sha512`. -/
def ShaState.finalize (s : ShaState) : Bytes :=
  let w := (s.update (shaPadding s.rest s.count)).words
  natBytes 8 w.a ++ natBytes 8 w.b ++ natBytes 8 w.c ++ natBytes 8 w.d ++
    natBytes 8 w.e ++ natBytes 8 w.f ++ natBytes 8 w.g ++ natBytes 8 w.h

theorem absorb_rest (n : Nat) (s : ShaWords) (b : Bytes) (h : b.length ≤ n) :
    ∃ q, (absorb n s b).2.length + 128 * q = b.length ∧ (absorb n s b).2.length < 128 := by
  induction n generalizing s b with
  | zero => exact ⟨0, rfl, by simp only [absorb]; omega⟩
  | succ n ih =>
    simp only [absorb]
    split
    · exact ⟨0, rfl, by assumption⟩
    · obtain ⟨q, h1, h2⟩ := ih (s.compress (b.take 128)) (b.drop 128) (by simp; omega)
      exact ⟨q + 1, by simp only [List.length_drop] at h1; omega, h2⟩

/-- The hasher of sha512.rs. Full blocks are not kept (`BlockBuffer`). -/
def sha512 : Hasher where
  State := { s : ShaState // s.rest.length < 128 }
  init := ⟨⟨shaInit, [], 0⟩, by decide⟩
  update s b := ⟨s.1.update b, (absorb_rest _ s.1.words (s.1.rest ++ b) (Nat.le_refl _)).choose_spec.2⟩
  finalize s := s.1.finalize

end Rops
