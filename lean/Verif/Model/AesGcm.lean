import Verif.Model.Crypto
/-!
# AES-256-GCM

crates/lib/src/cryptography/cipher/aes256_gcm.rs gives the type `AesGcm<Aes256, U32>` of the crate `aes-gcm` to
the `Cipher` trait. Here it is modelled by its standards: the block cipher of FIPS 197 with keys of 256 bits, and the
Galois/Counter Mode of NIST SP 800-38D with tags of 16 bytes. The nonces of rops have 32 bytes, so that the first
counter block is a hash of the nonce.

Words of 32 bits and blocks of 128 bits are natural numbers, most significant byte first.
-/

namespace Rops

/-- The bytes as a number, most significant first. -/
def beNat (b : Bytes) : Nat := b.foldl (fun n x => n * 256 + x.toNat) 0

/-- The lowest `n` bytes of a number, most significant first. -/
def natBytes : Nat → Nat → Bytes
  | 0, _ => []
  | n + 1, x => natBytes n (x / 256) ++ [UInt8.ofNat (x % 256)]

/-! ## The block cipher -/

/-- The S-box (FIPS 197, figure 7), the entry for 0 in the lowest byte. -/
def sboxTable : Nat :=
  0x16bb54b00f2d99416842e6bf0d89a18cdf2855cee9871e9b948ed9691198f8e19e1dc186b95735610ef6034866b53e708a8bbd4b1f74dde8c6b4a61c2e2578ba08ae7a65eaf4566ca94ed58d6d37c8e779e4959162acd3c25c2406490a3a32e0db0b5ede14b8ee4688902a22dc4f816073195d643d7ea7c41744975fec130ccdd2f3ff1021dab6bcf5389d928f40a351a89f3c507f02f94585334d43fbaaefd0cf584c4a39becb6a5bb1fc20ed00d153842fe329b3d63b52a05a6e1b1a2c830975b227ebe28012079a059618c323c7041531d871f1e5a534ccf73f362693fdb7c072a49cafa2d4adf04759fa7dc982ca76abd7fe2b670130c56f6bf27b777c63

/-- `SubBytes` for one byte (FIPS 197, 5.1.1). -/
def subByte (x : Nat) : Nat := (sboxTable >>> (8 * x)) % 256

/-- A word of four bytes. -/
def aesWord (a b c d : Nat) : Nat := a <<< 24 ||| b <<< 16 ||| c <<< 8 ||| d

/-- `SubWord` (5.2). -/
def subWord (w : Nat) : Nat := aesWord (subByte (w >>> 24)) (subByte (w >>> 16 % 256)) (subByte (w >>> 8 % 256)) (subByte (w % 256))

/-- `RotWord` (5.2). -/
def rotWord (w : Nat) : Nat := (w <<< 8 ||| w >>> 24) % 2 ^ 32

/-- Multiplication by x in the field of 256 elements (4.2.1). -/
def xtime (b : Nat) : Nat := if b < 128 then 2 * b else (2 * b) ^^^ 0x11b

/-- The state, or a round key: four columns. -/
structure Columns where
  c0 : Nat
  c1 : Nat
  c2 : Nat
  c3 : Nat
deriving DecidableEq

/-- `AddRoundKey` (5.1.4). -/
def Columns.xor (s k : Columns) : Columns := ⟨s.c0 ^^^ k.c0, s.c1 ^^^ k.c1, s.c2 ^^^ k.c2, s.c3 ^^^ k.c3⟩

/-- One column of `MixColumns` (5.1.3). -/
def mixColumn (a b c d : Nat) : Nat :=
  aesWord (xtime a ^^^ xtime b ^^^ b ^^^ c ^^^ d) (a ^^^ xtime b ^^^ xtime c ^^^ c ^^^ d)
    (a ^^^ b ^^^ xtime c ^^^ xtime d ^^^ d) (xtime a ^^^ a ^^^ b ^^^ c ^^^ xtime d)

/-- `SubBytes` and `ShiftRows` (5.1.1, 5.1.2) for the column made of these four, then `f`. -/
def shiftedColumn (f : Nat → Nat → Nat → Nat → Nat) (a b c d : Nat) : Nat :=
  f (subByte (a >>> 24)) (subByte (b >>> 16 % 256)) (subByte (c >>> 8 % 256)) (subByte (d % 256))

/-- A round without its key; the last one has no `MixColumns` (5.1). -/
def Columns.step (f : Nat → Nat → Nat → Nat → Nat) (s : Columns) : Columns :=
  ⟨shiftedColumn f s.c0 s.c1 s.c2 s.c3, shiftedColumn f s.c1 s.c2 s.c3 s.c0,
    shiftedColumn f s.c2 s.c3 s.c0 s.c1, shiftedColumn f s.c3 s.c0 s.c1 s.c2⟩

/-- The rounds after the first key (5.1). -/
def aesRounds : List Columns → Columns → Columns
  | [], s => s
  | [k], s => (s.step aesWord).xor k
  | k :: ks, s => aesRounds ks ((s.step mixColumn).xor k)

/-- The next eight words of the key schedule (5.2), as two round keys. -/
def nextKeys (rcon : Nat) (p q : Columns) : Columns × Columns :=
  let a0 := p.c0 ^^^ subWord (rotWord q.c3) ^^^ rcon <<< 24
  let a1 := p.c1 ^^^ a0
  let a2 := p.c2 ^^^ a1
  let a3 := p.c3 ^^^ a2
  let b0 := q.c0 ^^^ subWord a3
  let b1 := q.c1 ^^^ b0
  let b2 := q.c2 ^^^ b1
  (⟨a0, a1, a2, a3⟩, ⟨b0, b1, b2, q.c3 ^^^ b2⟩)

/-- The round keys, two for each constant. -/
def keySchedule : List Nat → Columns → Columns → List Columns
  | [], p, _ => [p]
  | r :: rs, p, q => p :: q :: keySchedule rs (nextKeys r p q).1 (nextKeys r p q).2

/-- The four words of 16 bytes. -/
def columns (n : Nat) : Columns := ⟨n >>> 96 % 2 ^ 32, n >>> 64 % 2 ^ 32, n >>> 32 % 2 ^ 32, n % 2 ^ 32⟩

/-- The 15 round keys of a key of 32 bytes. -/
def aesKeys (key : Bytes) : List Columns :=
  keySchedule [1, 2, 4, 8, 16, 32, 64] (columns (beNat (key.take 16))) (columns (beNat (key.drop 16)))

/-- The block cipher on a block. -/
def aesBlock (keys : List Columns) (n : Nat) : Nat :=
  match keys with
  | [] => 0
  | k :: ks =>
    let s := aesRounds ks ((columns n).xor k)
    s.c0 <<< 96 ||| s.c1 <<< 64 ||| s.c2 <<< 32 ||| s.c3

/-! ## Galois/Counter Mode -/

/-- The product of blocks (SP 800-38D, 6.3, algorithm 1), from the bit `i` of `x` down. -/
def gcmMul (x : Nat) : Nat → Nat → Nat → Nat
  | 0, z, _ => z
  | i + 1, z, v => gcmMul x i (if x.testBit i then z ^^^ v else z) (if v % 2 = 0 then v / 2 else (v / 2) ^^^ 0xe1 <<< 120)

/-- The blocks of a text, the last one padded with zeros; `n` is the length at most. -/
def gcmBlocks : Nat → Bytes → List Nat
  | 0, _ => []
  | _ + 1, [] => []
  | n + 1, b => beNat ((b.take 16) ++ List.replicate (16 - b.length) 0) :: gcmBlocks n (b.drop 16)

/-- `GHASH` (6.4, algorithm 2). -/
def ghash (h : Nat) (blocks : List Nat) : Nat := blocks.foldl (fun y x => gcmMul (y ^^^ x) 128 0 h) 0

/-- `inc32` (6.2). -/
def inc32 (n : Nat) : Nat := n / 2 ^ 32 * 2 ^ 32 + (n + 1) % 2 ^ 32

/-- The blocks that `GCTR` (6.5, algorithm 3) adds to a text, from the counter block on. -/
def gcmStream (keys : List Columns) : Nat → Nat → Bytes
  | 0, _ => []
  | n + 1, c => natBytes 16 (aesBlock keys c) ++ gcmStream keys n (inc32 c)

/-- `GCTR`. -/
def gctr (keys : List Columns) (c : Nat) (b : Bytes) : Bytes :=
  List.zipWith (· ^^^ ·) b (gcmStream keys (b.length / 16 + 1) c)

/-- The first counter block of a nonce (7.1, step 2). -/
def gcmFirst (h : Nat) (nonce : Bytes) : Nat :=
  if nonce.length = 12 then beNat nonce <<< 32 ||| 1 else ghash h (gcmBlocks nonce.length nonce ++ [8 * nonce.length])

/-- The tag (7.1, steps 4 to 6). -/
def gcmTag (keys : List Columns) (h first : Nat) (aad data : Bytes) : Bytes :=
  natBytes 16 (ghash h (gcmBlocks aad.length aad ++ gcmBlocks data.length data ++ [(8 * aad.length) <<< 64 ||| 8 * data.length]) ^^^
    aesBlock keys first)

/-- `encrypt_in_place_detached` and `decrypt_in_place_detached` of `AesGcm` (`aes-gcm` 0.10.3, lib.rs: `P_MAX`, `C_MAX`,
`A_MAX`), as aes256_gcm.rs:24-48 uses them. -/
def aesGcm : Cipher where
  name := c!"AES256_GCM"
  nonceSize := 32
  tagSize := 16
  encrypt nonce key plain aad :=
    let keys := aesKeys key
    let h := aesBlock keys 0
    let first := gcmFirst h nonce
    if plain.length > 2 ^ 36 ∨ aad.length > 2 ^ 36 then none
    else
      let data := gctr keys (inc32 first) plain
      some (data, gcmTag keys h first aad data)
  decrypt nonce key data aad tag :=
    let keys := aesKeys key
    let h := aesBlock keys 0
    let first := gcmFirst h nonce
    if data.length > 2 ^ 36 + 16 ∨ aad.length > 2 ^ 36 then none
    else if gcmTag keys h first aad data = tag then some (gctr keys (inc32 first) data)
    else none

end Rops
