import Verif.Model.TomlText
import Verif.Model.Timestamp
/-!
# Dates of TOML

`toml_edit` 0.22.21 (`parser/datetime.rs`) reads dates, times and both together; `toml_datetime` 0.6.8
(`impl Display`) writes them, and its `FromStr`, by which `toml::Value` takes them over, reads
what it writes.
-/

namespace Rops

/-- `Date`. -/
structure TomlDate where
  year : Nat
  month : Nat
  day : Nat
deriving DecidableEq

/-- `Time`. -/
structure TomlTime where
  hour : Nat
  minute : Nat
  second : Nat
  nano : Nat
deriving DecidableEq

/-- `Offset`. -/
inductive TomlOffset where
  | utc
  | minutes (m : Int)
deriving DecidableEq

/-- `Datetime`. -/
structure TomlMoment where
  date : Option TomlDate
  time : Option TomlTime
  offset : Option TomlOffset
deriving DecidableEq

/-! ## Reading -/

/-- `unsigned_digits`: so many digits. -/
def tomlFixed (w : Nat) (s : Str) : Option (Nat × Str) :=
  if (s.take w).length = w ∧ (s.take w).all Char.isDigit then some (tomlNat 10 (s.take w), s.drop w) else none

/-- One character. -/
def tomlSkip (c : Char) : Str → Option Str
  | a :: r => if a = c then some r else none
  | [] => none

/-- `max_days_in_month`. -/
def tomlMonthDays (year month : Nat) : Nat :=
  if month = 2 then (if year % 4 = 0 ∧ (year % 100 ≠ 0 ∨ year % 400 = 0) then 29 else 28)
  else if month = 4 ∨ month = 6 ∨ month = 9 ∨ month = 11 then 30 else 31

/-- `full_date`. -/
def tomlFullDate (s : Str) : Option (TomlDate × Str) :=
  (tomlFixed 4 s).bind fun y => (tomlSkip '-' y.2).bind fun r => (tomlFixed 2 r).bind fun m => (tomlSkip '-' m.2).bind fun r =>
    (tomlFixed 2 r).bind fun d =>
      if 1 ≤ m.1 ∧ m.1 ≤ 12 ∧ 1 ≤ d.1 ∧ d.1 ≤ tomlMonthDays y.1 m.1 then some (⟨y.1, m.1, d.1⟩, d.2) else none

/-- `time_secfrac`: nanoseconds of digits; further ones are dropped. -/
def tomlNano (ds : Str) : Nat := tomlNat 10 (ds.take 9) * 10 ^ (9 - (ds.take 9).length)

/-- `opt(time_secfrac)`. -/
def tomlSecFrac : Str → Option (Nat × Str)
  | '.' :: r => if (r.takeWhile Char.isDigit).isEmpty then none else some (tomlNano (r.takeWhile Char.isDigit), r.dropWhile Char.isDigit)
  | r => some (0, r)

/-- `partial_time`. -/
def tomlPartialTime (s : Str) : Option (TomlTime × Str) :=
  (tomlFixed 2 s).bind fun h => (tomlSkip ':' h.2).bind fun r => (tomlFixed 2 r).bind fun m => (tomlSkip ':' m.2).bind fun r =>
    (tomlFixed 2 r).bind fun x => (tomlSecFrac x.2).bind fun f =>
      if h.1 ≤ 23 ∧ m.1 ≤ 59 ∧ x.1 ≤ 60 then some (⟨h.1, m.1, x.1, f.1⟩, f.2) else none

/-- The hours and minutes of `time_offset`, to the end. -/
def tomlOffsetDigits (r : Str) : Option Nat :=
  (tomlFixed 2 r).bind fun h => (tomlSkip ':' h.2).bind fun r => (tomlFixed 2 r).bind fun m =>
    if h.1 ≤ 23 ∧ m.1 ≤ 59 ∧ m.2 = [] then some (h.1 * 60 + m.1) else none

/-- `opt(time_offset)`, to the end. -/
def tomlTimeOffset : Str → Option (Option TomlOffset)
  | [] => some none
  | c :: r =>
    if (c = 'Z' ∨ c = 'z') ∧ r = [] then some (some .utc)
    else if c = '+' then (tomlOffsetDigits r).map fun (n : Nat) => some (.minutes n)
    else if c = '-' then (tomlOffsetDigits r).map fun (n : Nat) => some (.minutes (-n))
    else none

/-- `date_time`, to the end. -/
def tomlMoment (s : Str) : Option TomlMoment :=
  match tomlFullDate s with
  | some (d, []) => some ⟨some d, none, none⟩
  | some (d, c :: r) =>
    if c = 'T' ∨ c = 't' ∨ c = ' ' then (tomlPartialTime r).bind fun t => (tomlTimeOffset t.2).map fun o => ⟨some d, some t.1, o⟩
    else none
  | none => (tomlPartialTime s).bind fun t => if t.2 = [] then some ⟨none, some t.1, none⟩ else none

/-! ## Writing -/

/-- `impl Display for Date`. -/
def TomlDate.show (d : TomlDate) : Str := padDigits 4 d.year ++ '-' :: (padDigits 2 d.month ++ '-' :: padDigits 2 d.day)

/-- The fraction of seconds: nine digits without the zeros at the end. -/
def tomlFractionText (n : Nat) : Str :=
  if n = 0 then [] else '.' :: ((padDigits 9 n).reverse.dropWhile (· == '0')).reverse

/-- `impl Display for Time`. -/
def TomlTime.show (t : TomlTime) : Str :=
  padDigits 2 t.hour ++ ':' :: (padDigits 2 t.minute ++ ':' :: (padDigits 2 t.second ++ tomlFractionText t.nano))

/-- `impl Display for Offset`. -/
def TomlOffset.show : TomlOffset → Str
  | .utc => c!"Z"
  | .minutes m => (if m < 0 then '-' else '+') :: (padDigits 2 (m.natAbs / 60) ++ ':' :: padDigits 2 (m.natAbs % 60))

/-- `impl Display for Datetime`. -/
def TomlMoment.show (t : TomlMoment) : Str :=
  (match t.date with
    | some d => d.show
    | none => []) ++ ((match t.time with
    | some x => (if t.date.isSome then c!"T" else []) ++ x.show
    | none => []) ++ (match t.offset with
    | some o => o.show
    | none => []))

/-- A date, as it is read and shown. -/
def tomlDateText (s : Str) : Option Str := (tomlMoment s).map TomlMoment.show

/-- Floats and dates as they are read. -/
def rustToml : TomlScalars := rustScalars tomlDateText

end Rops
