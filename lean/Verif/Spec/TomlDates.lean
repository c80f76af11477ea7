import Verif.Model.TomlDates
import Verif.Spec.TomlGrammar
import Verif.Spec.Document
/-!
# Specification of the dates of TOML: the texts of RFC 3339 and parts of them
-/

namespace Rops.Spec

/-- A number with so many digits. -/
def FixedText (w n : Nat) (x : Str) : Prop := x.length = w ∧ NumberIn 10 x n

/-- A day of the calendar, year first. -/
def TomlDayText (d : TomlDate) (x : Str) : Prop :=
  ∃ y m e, x = y ++ '-' :: (m ++ '-' :: e) ∧ FixedText 4 d.year y ∧ FixedText 2 d.month m ∧ FixedText 2 d.day e ∧
    (1 ≤ d.month ∧ d.month ≤ 12) ∧ (1 ≤ d.day ∧ d.day ≤ daysInMonth d.year d.month)

/-- A fraction of a second, or nothing; what is less than a nanosecond is dropped. -/
def TomlSecFracText (nano : Nat) (x : Str) : Prop :=
  (nano = 0 ∧ x = []) ∨ ∃ ds n, x = '.' :: ds ∧ ds ≠ [] ∧ NumberIn 10 ds n ∧ nano = n * 10 ^ 9 / 10 ^ ds.length

/-- A time of the day, possibly in a leap second. -/
def TomlTimeText (t : TomlTime) (x : Str) : Prop :=
  ∃ h m s f, x = h ++ ':' :: (m ++ ':' :: (s ++ f)) ∧ FixedText 2 t.hour h ∧ FixedText 2 t.minute m ∧ FixedText 2 t.second s ∧
    TomlSecFracText t.nano f ∧ t.hour < 24 ∧ t.minute < 60 ∧ t.second ≤ 60

/-- How far a time is from that in UTC. -/
def TomlOffsetText : TomlOffset → Str → Prop
  | .utc, x => x = c!"Z" ∨ x = c!"z"
  | .minutes m, x => ∃ sg h y n z, x = sg :: (y ++ ':' :: z) ∧ FixedText 2 h y ∧ FixedText 2 n z ∧ h < 24 ∧ n < 60 ∧
      ((sg = '+' ∧ m = (h * 60 + n : Nat)) ∨ (sg = '-' ∧ m = -((h * 60 + n : Nat) : Int)))

/-- A date, a time, both, or both with the distance to UTC. -/
inductive TomlMomentText : TomlMoment → Str → Prop
  | day {d : TomlDate} {x : Str} : TomlDayText d x → TomlMomentText ⟨some d, none, none⟩ x
  | time {t : TomlTime} {x : Str} : TomlTimeText t x → TomlMomentText ⟨none, some t, none⟩ x
  | both {d : TomlDate} {t : TomlTime} {x y : Str} {c : Char} : TomlDayText d x → c ∈ ['T', 't', ' '] → TomlTimeText t y →
    TomlMomentText ⟨some d, some t, none⟩ (x ++ c :: y)
  | offset {d : TomlDate} {t : TomlTime} {o : TomlOffset} {x y z : Str} {c : Char} : TomlDayText d x → c ∈ ['T', 't', ' '] →
    TomlTimeText t y → TomlOffsetText o z → TomlMomentText ⟨some d, some t, some o⟩ (x ++ c :: (y ++ z))

/-- What dates and times there are: four digits of years, days of the calendar, leap seconds,
nanoseconds, less than a day to UTC; the latter only with both. -/
structure TomlPossible (t : TomlMoment) : Prop where
  something : t.date.isSome ∨ t.time.isSome
  date : ∀ d, t.date = some d → d.year < 10000 ∧ (1 ≤ d.month ∧ d.month ≤ 12) ∧ (1 ≤ d.day ∧ d.day ≤ daysInMonth d.year d.month)
  time : ∀ x, t.time = some x → x.hour < 24 ∧ x.minute < 60 ∧ x.second ≤ 60 ∧ x.nano < 1000000000
  offset : ∀ o, t.offset = some o → t.date.isSome ∧ t.time.isSome ∧ ∀ m, o = .minutes m → m.natAbs < 1440

end Rops.Spec
