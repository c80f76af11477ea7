import Verif.Model.Timestamp
import Verif.Model.Keys
/-!
# How dates are read

`Deserialize for DateTime<Utc>` of `chrono` 0.4.38 (feature `serde`), by which the dates of the metadata are read
(crates/lib/src/file/timestamp.rs:7-8, last_modified.rs:6-8, integration/created_at.rs:5-7). The library is transcribed:
`FromStr for DateTime<FixedOffset>`, which is `parse_rfc3339_relaxed` (format/parse.rs) and `Parsed::to_datetime`
(format/parsed.rs), then `with_timezone(&Utc)`. Every error is `none`.
-/

namespace Rops

/-- `str::trim_start`. -/
def trimStart (s : Str) : Str := s.dropWhile isWhitespace

/-- `u8::is_ascii_digit`. -/
def isDigit (c : Char) : Bool := 48 ≤ c.toNat && c.toNat ≤ 57

/-- The number that digits stand for. -/
def digitsValue (ds : Str) : Nat := ds.foldl (fun n c => 10 * n + (c.toNat - 48)) 0

/-- `scan::number(s, 1, max)`: the digits at the beginning, at least one and at most `max`. A number that does not fit
`i64` is an error there; here it is refused later, for it is no year. -/
def scanNumber (max : Nat) (s : Str) : Option (Nat × Str) :=
  match (s.take max).takeWhile isDigit with
  | [] => none
  | ds => some (digitsValue ds, s.drop ds.length)

/-- `Numeric::Year`: four digits at most, or a sign and any number of digits. -/
def scanYear (s : Str) : Option (Int × Str) :=
  match trimStart s with
  | '-' :: r => (scanNumber r.length r).map fun p => (-(p.1 : Int), p.2)
  | '+' :: r => (scanNumber r.length r).map fun p => ((p.1 : Int), p.2)
  | s => (scanNumber 4 s).map fun p => ((p.1 : Int), p.2)

/-- Another `Numeric` item: two digits at most, after white space. -/
def scanTwo (s : Str) : Option (Nat × Str) := scanNumber 2 (trimStart s)

/-- `Item::Space` and `Item::Literal`. -/
def scanSeparator (c : Char) (s : Str) : Option Str :=
  match trimStart s with
  | d :: r => if d = c then some r else none
  | [] => none

/-- `Fixed::Nanosecond`: a fraction of a second, if there is one; digits after the ninth are dropped. -/
def scanFraction (s : Str) : Option (Nat × Str) :=
  match s with
  | '.' :: r => match (r.take 9).takeWhile isDigit with
    | [] => none
    | ds => some (digitsValue ds * 10 ^ (9 - ds.length), (r.drop ds.length).dropWhile isDigit)
  | s => some (0, s)

/-- `u8::to_ascii_uppercase`. -/
def asciiUpper (c : Char) : Char := if 97 ≤ c.toNat ∧ c.toNat ≤ 122 then Char.ofNat (c.toNat - 32) else c

/-- The two digits of the hours or minutes of an offset. -/
def scanOffsetDigits (s : Str) : Option (Nat × Str) :=
  match s with
  | a :: b :: r => if isDigit a ∧ isDigit b then some (digitsValue [a, b], r) else none
  | _ => none

/-- The hours and minutes of an offset, in minutes: colons and white space between them are skipped. -/
def scanOffsetTime (s : Str) : Option (Nat × Str) :=
  match scanOffsetDigits s with
  | none => none
  | some (h, s) => match scanOffsetDigits (s.dropWhile fun c => c = ':' || isWhitespace c) with
    | none => none
    | some (m, s) => if m < 60 then some (60 * h + m, s) else none

/-- The offset: "UTC" or "Z" in any case, or a sign, hours and minutes; in minutes. Also U+2212 is a sign. -/
def scanOffset (s : Str) : Option (Int × Str) :=
  let s := trimStart s
  if (s.take 3).map asciiUpper = c!"UTC" then some (0, s.drop 3)
  else match s with
  | [] => none
  | c :: r =>
    if c = 'Z' ∨ c = 'z' then some (0, r)
    else if c = '+' then (scanOffsetTime r).map fun p => ((p.1 : Int), p.2)
    else if c = '-' ∨ c = '−' then (scanOffsetTime r).map fun p => (-(p.1 : Int), p.2)
    else none

/-- What stands between date and time. -/
def scanT (s : Str) : Option Str :=
  match s with
  | c :: r => if c = 't' ∨ c = 'T' ∨ c = ' ' then some r else none
  | [] => none

/-- Days of a month (`NaiveDate::from_ymd_opt`). -/
def monthDays (year : Int) (month : Nat) : Nat :=
  match month with
  | 2 => if year % 4 = 0 ∧ (year % 100 ≠ 0 ∨ year % 400 = 0) then 29 else 28
  | 4 | 6 | 9 | 11 => 30
  | _ => 31

/-- The years of `NaiveDate`. -/
def chronoYear (year : Int) : Prop := -262143 ≤ year ∧ year ≤ 262142

instance (year : Int) : Decidable (chronoYear year) := inferInstanceAs (Decidable (_ ∧ _))

/-- The checks of `Parsed` (`set_month` and so on, `to_naive_date`, `to_naive_time`); second 60 is a leap second, at the
end of any minute. -/
def Timestamp.possible (t : Timestamp) : Bool :=
  chronoYear t.year && 1 ≤ t.month && t.month ≤ 12 && 1 ≤ t.day && t.day ≤ monthDays t.year t.month &&
    t.hour ≤ 23 && t.minute ≤ 59 && t.second ≤ 60

/-- `NaiveDate::succ_opt`. -/
def Timestamp.dayAfter (t : Timestamp) : Timestamp :=
  if t.day < monthDays t.year t.month then { t with day := t.day + 1 }
  else if t.month < 12 then { t with month := t.month + 1, day := 1 }
  else { t with year := t.year + 1, month := 1, day := 1 }

/-- `NaiveDate::pred_opt`. -/
def Timestamp.dayBefore (t : Timestamp) : Timestamp :=
  if 1 < t.day then { t with day := t.day - 1 }
  else if 1 < t.month then { t with month := t.month - 1, day := monthDays t.year (t.month - 1) }
  else { t with year := t.year - 1, month := 12, day := 31 }

/-- `NaiveDateTime::checked_sub_offset`, with an offset of less than a day in minutes. -/
def Timestamp.toUtc (t : Timestamp) (offset : Int) : Timestamp :=
  let m := 60 * t.hour + t.minute - offset
  let at' (t : Timestamp) (m : Int) : Timestamp := { t with hour := (m / 60).toNat, minute := (m % 60).toNat }
  if m < 0 then at' t.dayBefore (m + 1440)
  else if m < 1440 then at' t m
  else at' t.dayAfter (m - 1440)

/-- The date in its offset, and the offset in minutes: `parse_rfc3339_relaxed`, and that nothing follows. -/
def scanDate (s : Str) : Option (Timestamp × Int) := do
  let (year, s) ← scanYear s
  let s ← scanSeparator '-' s
  let (month, s) ← scanTwo s
  let s ← scanSeparator '-' s
  let (day, s) ← scanTwo s
  let s ← scanT s
  let (hour, s) ← scanTwo s
  let s ← scanSeparator ':' s
  let (minute, s) ← scanTwo s
  let s ← scanSeparator ':' s
  let (second, s) ← scanTwo s
  let (nano, s) ← scanFraction s
  let (offset, s) ← scanOffset s
  if trimStart s = [] then some (⟨year, month, day, hour, minute, second, nano⟩, offset) else none

/-- A date is read. -/
def chronoDate (s : Str) : Option Timestamp :=
  match scanDate s with
  | none => none
  | some (t, offset) =>
    if t.possible ∧ offset.natAbs < 1440 ∧ chronoYear (t.toUtc offset).year then some (t.toUtc offset) else none

end Rops
