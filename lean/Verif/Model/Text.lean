/-!
# Text and bytes

Rust `String`s are modelled as lists of Unicode scalar values, byte buffers as
lists of bytes. The functions below model the parts of `core::str` that rops
uses; they are library code, cited at their call sites.
-/

namespace Rops

/-- A Rust `String`/`&str`. -/
abbrev Str := List Char

open Lean in
/-- `c!"abc"` is the list of characters `['a', 'b', 'c']`. -/
macro:max "c!" s:str : term => do
  let cs := s.getString.toList.map fun c => (Syntax.mkCharLit c : TSyntax `term)
  `(([$(cs.toArray),*] : Str))

/-- A Rust `Vec<u8>`/`&[u8]`. -/
abbrev Bytes := List UInt8

/-- `str::as_bytes` (used e.g. in crates/lib/src/file/map/value/core.rs:63).
UTF-8 encoding, taken from Lean core. -/
def utf8 (s : Str) : Bytes := s.flatMap String.utf8EncodeChar

/-- `std::str::from_utf8` (crates/lib/src/file/map/value/core.rs:75).
UTF-8 validation and decoding, taken from Lean core. -/
def utf8? (b : Bytes) : Option Str := (ByteArray.utf8Decode? ⟨b.toArray⟩).map Array.toList

/-- `str::split(c)` for a character pattern: always yields at least one piece. -/
def splitOn (c : Char) : Str → List Str
  | [] => [[]]
  | x :: xs =>
    if x = c then [] :: splitOn c xs
    else match splitOn c xs with
      | [] => [[x]]
      | w :: ws => (x :: w) :: ws

/-- `str::strip_prefix(p)`. -/
def stripPrefix : Str → Str → Option Str
  | [], s => some s
  | p :: ps, c :: cs => if p = c then stripPrefix ps cs else none
  | _ :: _, [] => none

/-- `str::strip_suffix(c)` for a character. -/
def stripSuffixChar (c : Char) (s : Str) : Option Str :=
  if s.getLast? = some c then some s.dropLast else none

/-- `str::trim_end_matches(c)` for a character. -/
def trimEndMatches (c : Char) (s : Str) : Str := (s.reverse.dropWhile (· == c)).reverse

/-- `str::ends_with(suffix)` (crates/lib/src/file/metadata/partial_encryption.rs:22,24). -/
def endsWith (s suffix : Str) : Bool := suffix.reverse.isPrefixOf s.reverse

/-- `str::split_once(c)`: split at the first `c`. -/
def splitOnce (c : Char) : Str → Option (Str × Str)
  | [] => none
  | x :: xs => if x = c then some ([], xs) else (splitOnce c xs).map fun (a, b) => (x :: a, b)

/-- `str::rsplit_once(c)`: split at the last `c`. -/
def rsplitOnce (c : Char) : Str → Option (Str × Str)
  | [] => none
  | x :: xs =>
    match rsplitOnce c xs with
    | some (a, b) => some (x :: a, b)
    | none => if x = c then some ([], xs) else none

end Rops
