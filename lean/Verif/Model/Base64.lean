import Verif.Model.Text
/-!
# Base64

Models crates/lib/src/base64utils.rs with the `base64` crate's `STANDARD`
engine for encoding (padded) and `STANDARD_NO_PAD` for decoding (no padding
accepted, non-zero trailing bits rejected).
-/

namespace Rops.Base64

/-- The standard alphabet `A-Za-z0-9+/`: character for a 6 bit value. -/
def char (n : Nat) : Char :=
  if n < 26 then Char.ofNat (65 + n)
  else if n < 52 then Char.ofNat (97 + (n - 26))
  else if n < 62 then Char.ofNat (48 + (n - 52))
  else if n = 62 then '+' else '/'

/-- The standard alphabet: 6 bit value of a character. -/
def val (c : Char) : Option Nat :=
  let n := c.toNat
  if 65 ≤ n ∧ n ≤ 90 then some (n - 65)
  else if 97 ≤ n ∧ n ≤ 122 then some (n - 97 + 26)
  else if 48 ≤ n ∧ n ≤ 57 then some (n - 48 + 52)
  else if n = 43 then some 62
  else if n = 47 then some 63
  else none

/-- `general_purpose::STANDARD.encode` (crates/lib/src/base64utils.rs:16-18). -/
def encode : Bytes → Str
  | [] => []
  | [a] =>
    let n := a.toNat * 65536
    [char (n / 262144), char (n / 4096 % 64), '=', '=']
  | [a, b] =>
    let n := a.toNat * 65536 + b.toNat * 256
    [char (n / 262144), char (n / 4096 % 64), char (n / 64 % 64), '=']
  | a :: b :: c :: rest =>
    let n := a.toNat * 65536 + b.toNat * 256 + c.toNat
    char (n / 262144) :: char (n / 4096 % 64) :: char (n / 64 % 64) :: char (n % 64) :: encode rest

/-- `general_purpose::STANDARD_NO_PAD.decode`. Library code: groups of four
symbols give three bytes; a last group of two or three symbols gives one or two
bytes and must have zero trailing bits; a single left over symbol is an error. -/
def decodeNoPad : Str → Option Bytes
  | [] => some []
  | [_] => none
  | [x, y] => do
    let x ← val x; let y ← val y
    if y % 16 = 0 then
      some [UInt8.ofNat (x * 4 + y / 16)]
    else none
  | [x, y, z] => do
    let x ← val x; let y ← val y; let z ← val z
    if z % 4 = 0 then
      some [UInt8.ofNat (x * 4 + y / 16), UInt8.ofNat (y % 16 * 16 + z / 4)]
    else none
  | x :: y :: z :: w :: rest => do
    let x ← val x; let y ← val y; let z ← val z; let w ← val w
    let r ← decodeNoPad rest
    some (UInt8.ofNat (x * 4 + y / 16) :: UInt8.ofNat (y % 16 * 16 + z / 4) ::
      UInt8.ofNat (z % 4 * 64 + w) :: r)

/-- `decode_base64` for a growing buffer (crates/lib/src/base64utils.rs:34-40):
trailing `=` are removed first, however many. -/
def decode (s : Str) : Option Bytes := decodeNoPad (trimEndMatches '=' s)

/-- Outcome of decoding into a fixed size buffer. -/
inductive SliceResult where
  | ok (b : Bytes)
  | invalid
  | panic
deriving DecidableEq, Repr

/-- `decode_base64` for a slice (crates/lib/src/base64utils.rs:42-49), called on
a zeroed buffer of `n` bytes (crates/lib/src/cryptography/nonce.rs FromStr,
authorization_tag.rs:17-20). A shorter input leaves trailing zero bytes, a
longer one panics. (Simplification: a text that is both invalid and too long is
reported as invalid; the library may panic first.) -/
def decodeSlice (n : Nat) (s : Str) : SliceResult :=
  match decode s with
  | none => .invalid
  | some b => if b.length ≤ n then .ok (b ++ List.replicate (n - b.length) 0) else .panic

end Rops.Base64
