import Verif.Model.Text
/-!
# Timestamps

Models crates/lib/src/file/timestamp.rs. `DateTime<Utc>` of `chrono` is modelled
by its calendar fields.
-/

namespace Rops

/-- `Timestamp` (crates/lib/src/file/timestamp.rs:8), a `DateTime<Utc>`. -/
structure Timestamp where
  year : Int
  month : Nat
  day : Nat
  hour : Nat
  minute : Nat
  second : Nat
  nano : Nat
deriving DecidableEq, Repr

/-- Fields that need two digits. A leap second is `second = 60` (in `chrono` it is second 59 with 10^9 nanoseconds more,
and printed as 60). -/
structure Timestamp.Valid (t : Timestamp) : Prop where
  month : t.month < 100
  day : t.day < 100
  hour : t.hour < 100
  minute : t.minute < 100
  second : t.second < 100

/-- Last decimal digit of a number. -/
def digit (n : Nat) : Char := Nat.digitChar (n % 10)

/-- Two digits. -/
def pad2 (n : Nat) : Str := [digit (n / 10), digit n]

/-- Four digits. -/
def pad4 (n : Nat) : Str := [digit (n / 1000), digit (n / 100), digit (n / 10), digit n]

/-- Digits of a number, as many as given. -/
def padDigits : Nat → Nat → Str
  | 0, _ => []
  | w + 1, n => padDigits w (n / 10) ++ [digit n]

/-- A year as `write_rfc3339` of `chrono` writes it: four digits, or a sign and at least four. -/
def yearText (y : Int) : Str :=
  if 0 ≤ y ∧ y < 10000 then pad4 y.toNat
  else (if y < 0 then '-' else '+') :: (if y.natAbs < 10000 then pad4 y.natAbs else Nat.toDigits 10 y.natAbs)

/-- `Display for Timestamp` (timestamp.rs:16-20): RFC 3339 with `SecondsFormat::Secs`
and `Z`; the sub-second part is dropped. -/
def Timestamp.toText (t : Timestamp) : Str :=
  yearText t.year ++ ['-'] ++ pad2 t.month ++ ['-'] ++ pad2 t.day ++ ['T'] ++
    pad2 t.hour ++ [':'] ++ pad2 t.minute ++ [':'] ++ pad2 t.second ++ ['Z']

/-- `LastModifiedDateTime::to_bytes` (crates/lib/src/file/metadata/last_modified.rs:15-17). -/
def Timestamp.toBytes (t : Timestamp) : Bytes := utf8 t.toText

/-- `Timestamp::now` (timestamp.rs:11-13) for a clock reading: drops the nanoseconds. -/
def Timestamp.truncate (clock : Timestamp) : Timestamp := { clock with nano := 0 }

end Rops
