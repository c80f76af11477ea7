import Verif.Spec.Document
import Verif.Spec.Syntax
/-!
# The dates that are read
-/

namespace Rops.Spec

/-- White space only. -/
def Blank (w : Str) : Prop := ∀ c ∈ w, isWhitespace c = true

/-- A year: at most four digits, or a sign and any number of digits. -/
inductive YearText : Str → Int → Prop
  | plain {ds : Str} {n : Nat} : Decimal ds n → ds.length ≤ 4 → YearText ds n
  | plus {ds : Str} {n : Nat} : Decimal ds n → YearText ('+' :: ds) n
  | minus {ds : Str} {n : Nat} : Decimal ds n → YearText ('-' :: ds) (-n)

/-- A number of one or two digits. -/
def TwoText (s : Str) (n : Nat) : Prop := Decimal s n ∧ s.length ≤ 2

/-- A fraction of a second, in nanoseconds: there may be none, and only the first nine digits count. -/
inductive FractionText : Str → Nat → Prop
  | none : FractionText [] 0
  | short {ds : Str} {n : Nat} : Decimal ds n → ds.length ≤ 9 → FractionText ('.' :: ds) (n * 10 ^ (9 - ds.length))
  | long {ds : Str} {n : Nat} {more : Str} {k : Nat} : Decimal ds n → ds.length = 9 → Decimal more k →
      FractionText ('.' :: (ds ++ more)) n

/-- An offset from UTC, in minutes. -/
inductive OffsetText : Str → Int → Prop
  | utc {u t c : Char} : u = 'U' ∨ u = 'u' → t = 'T' ∨ t = 't' → c = 'C' ∨ c = 'c' → OffsetText [u, t, c] 0
  | zulu {z : Char} : z = 'Z' ∨ z = 'z' → OffsetText [z] 0
  | east {h sep m : Str} {hours minutes : Nat} : Decimal h hours → h.length = 2 → (∀ c ∈ sep, c = ':' ∨ isWhitespace c = true) →
      Decimal m minutes → m.length = 2 → minutes < 60 → OffsetText ('+' :: (h ++ (sep ++ m))) (60 * hours + minutes)
  | west {sign : Char} {h sep m : Str} {hours minutes : Nat} : sign = '-' ∨ sign = '−' → Decimal h hours → h.length = 2 →
      (∀ c ∈ sep, c = ':' ∨ isWhitespace c = true) →
      Decimal m minutes → m.length = 2 → minutes < 60 → OffsetText (sign :: (h ++ (sep ++ m))) (-(60 * hours + minutes))

/-- A date and time with an offset, as in RFC 3339 but with fewer digits and white space allowed. -/
def RelaxedDate (s : Str) (t : Timestamp) (offset : Int) : Prop :=
  ∃ (y mo d h mi sec frac o w0 w1 w2 w3 w4 w5 w6 w7 w8 w9 w10 w11 : Str) (sep : Char),
    s = w0 ++ y ++ w1 ++ c!"-" ++ w2 ++ mo ++ w3 ++ c!"-" ++ w4 ++ d ++ [sep] ++ w5 ++ h ++ w6 ++ c!":" ++ w7 ++ mi ++ w8 ++ c!":" ++
      w9 ++ sec ++ frac ++ w10 ++ o ++ w11 ∧
    (∀ w ∈ [w0, w1, w2, w3, w4, w5, w6, w7, w8, w9, w10, w11], Blank w) ∧ (sep = 'T' ∨ sep = 't' ∨ sep = ' ') ∧
    YearText y t.year ∧ TwoText mo t.month ∧ TwoText d t.day ∧ TwoText h t.hour ∧ TwoText mi t.minute ∧ TwoText sec t.second ∧
    FractionText frac t.nano ∧ OffsetText o offset

/-- Days since the beginning of the year 1 (floor division). -/
def dayNumber (year : Int) (month day : Nat) : Int :=
  365 * (year - 1) + (year - 1) / 4 - (year - 1) / 100 + (year - 1) / 400 +
    ((List.range (month - 1)).map fun m => daysInMonth year (m + 1)).sum + day - 1

/-- Minutes since the beginning of the year 1. -/
def minuteNumber (t : Timestamp) : Int := 1440 * dayNumber t.year t.month t.day + 60 * t.hour + t.minute

/-- The times differ by a number of minutes (leap seconds apart): the first is later. -/
def LaterBy (minutes : Int) (t u : Timestamp) : Prop :=
  minuteNumber t = minuteNumber u + minutes ∧ t.second = u.second ∧ t.nano = u.nano

end Rops.Spec
