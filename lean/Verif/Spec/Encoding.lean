import Verif.Model.Text
/-!
# Specification of the encodings of bytes as text

Base64 as in RFC 4648, section 4, on the sequence of bits, and hexadecimal digits as in
section 8. Independent of the model, which computes with groups of three bytes.
-/

namespace Rops.Spec

/-- The bits of a byte, the most significant first. -/
def byteBits (x : UInt8) : List Bool :=
  [7, 6, 5, 4, 3, 2, 1, 0].map fun i => x.toNat.testBit i

/-- The bits of a byte sequence. -/
def bits (b : Bytes) : List Bool := b.flatMap byteBits

/-- The number written by bits, the most significant first. -/
def ofBits (l : List Bool) : Nat := l.foldl (fun n b => 2 * n + b.toNat) 0

/-- The bits in groups of six, the last group filled with zeros. -/
def sextets : List Bool → List (List Bool)
  | [] => []
  | a :: b :: c :: d :: e :: f :: r => [a, b, c, d, e, f] :: sextets r
  | l => [l ++ List.replicate (6 - l.length) false]

/-- The base64 alphabet (RFC 4648, table 1). -/
def base64Alphabet : Str := c!"ABCDEFGHIJKLMNOPQRSTUVWXYZabcdefghijklmnopqrstuvwxyz0123456789+/"

/-- One symbol for each group of six bits. -/
def base64Symbols (b : Bytes) : Str := (sextets (bits b)).map fun g => base64Alphabet.getD (ofBits g) '?'

/-- Base64 text: the symbols, filled with `=` to a multiple of four. -/
def base64 (b : Bytes) : Str :=
  base64Symbols b ++ List.replicate ((4 - (base64Symbols b).length % 4) % 4) '='

/-- Hexadecimal text in upper case, two digits for each byte. -/
def hex (b : Bytes) : Str :=
  b.flatMap fun x => [c!"0123456789ABCDEF".getD (x.toNat / 16) '?', c!"0123456789ABCDEF".getD (x.toNat % 16) '?']

end Rops.Spec
