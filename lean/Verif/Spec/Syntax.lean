import Verif.Model.EncValue
import Verif.Model.Timestamp
import Verif.Spec.Encoding
/-!
# Specification of the texts rops reads and writes
-/

namespace Rops.Spec

/-- Two texts are equal up to trailing `=` characters. -/
def SameUpToPadding (s t : Str) : Prop :=
  ∃ m n, s ++ List.replicate m '=' = t ++ List.replicate n '='

/-- `text` stands for the bytes `b`: it is their base64 encoding up to trailing
`=` characters. -/
def Denotes (text : Str) (b : Bytes) : Prop := SameUpToPadding text (base64 b)

/-- `text` stands for a prefix of the `size` bytes `b`, the rest being zero. -/
def DenotesZeroFilled (size : Nat) (text : Str) (b : Bytes) : Prop :=
  ∃ b', Denotes text b' ∧ b'.length ≤ size ∧ b = b' ++ List.replicate (size - b'.length) 0

/-- The name of a type in the text of an encrypted value. -/
def typeName : Variant → Str
  | .string => c!"str"
  | .integer => c!"int"
  | .float => c!"float"
  | .boolean => c!"bool"

/-- The text of an encrypted value. -/
def encText (C : Cipher) (e : EncValue) : Str :=
  c!"ENC[" ++ C.name ++ c!",data:" ++ base64 e.data ++ c!",iv:" ++ base64 e.nonce
    ++ c!",tag:" ++ base64 e.tag ++ c!",type:" ++ typeName e.variant ++ c!"]"

/-- The texts that stand for an encrypted value:
`ENC[<cipher>,data:<base64>,iv:<base64>,tag:<base64>,type:<type>]`, possibly with
further comma separated components before the closing bracket. -/
def EncSyntax (C : Cipher) (s : Str) (e : EncValue) : Prop :=
  ∃ data iv tag rest,
    s = c!"ENC[" ++ C.name ++ c!",data:" ++ data ++ c!",iv:" ++ iv
      ++ c!",tag:" ++ tag ++ c!",type:" ++ typeName e.variant ++ rest ++ c!"]"
    ∧ (rest = [] ∨ ∃ r, rest = ',' :: r)
    ∧ Denotes data e.data
    ∧ DenotesZeroFilled C.nonceSize iv e.nonce
    ∧ DenotesZeroFilled C.tagSize tag e.tag

/-- A text of one or more decimal digits, with its number. -/
inductive Decimal : Str → Nat → Prop
  | digit (d : Nat) : d < 10 → Decimal [Char.ofNat (48 + d)] d
  | more {s : Str} {n : Nat} (d : Nat) : Decimal s n → d < 10 → Decimal (s ++ [Char.ofNat (48 + d)]) (10 * n + d)

/-- The texts of an integer: a decimal number, possibly with a sign. -/
def IntText (s : Str) (i : Int) : Prop :=
  ∃ ds n, Decimal ds n ∧ ((s = ds ∨ s = '+' :: ds) ∧ i = n ∨ s = '-' :: ds ∧ i = -n)

/-- The text of a year: four digits, or, for years other than 0 to 9999, a sign and at least four digits, without needless
zeros. -/
def WrittenYear (s : Str) (y : Int) : Prop :=
  ∃ (ds : Str) (n : Nat), Decimal ds n ∧ (ds.length = 4 ∨ 4 < ds.length ∧ ds.head? ≠ some '0') ∧
    (s = ds ∧ ds.length = 4 ∧ y = n ∨ s = '+' :: ds ∧ 4 < ds.length ∧ y = n ∨ s = '-' :: ds ∧ n ≠ 0 ∧ y = -n)

/-- The text of a date and time in UTC as in RFC 3339, to the second. -/
def DateText (t : Timestamp) (s : Str) : Prop :=
  ∃ (y mo d h mi sec : Str), s = y ++ c!"-" ++ mo ++ c!"-" ++ d ++ c!"T" ++ h ++ c!":" ++ mi ++ c!":" ++ sec ++ c!"Z" ∧
    WrittenYear y t.year ∧ (Decimal mo t.month ∧ mo.length = 2) ∧ (Decimal d t.day ∧ d.length = 2) ∧
    (Decimal h t.hour ∧ h.length = 2) ∧ (Decimal mi t.minute ∧ mi.length = 2) ∧
    (Decimal sec t.second ∧ sec.length = 2)

/-- The text of a date and time in UTC as in RFC 3339, with as many digits, in threes, of the
fraction of the second as it needs. -/
def FullDateText (t : Timestamp) (s : Str) : Prop :=
  ∃ r frac, DateText t (r ++ c!"Z") ∧ s = r ++ frac ++ c!"Z" ∧
    (t.nano = 0 ∧ frac = [] ∨
      t.nano ≠ 0 ∧ ∃ w unit ds n, (w = 3 ∧ unit = 1000000 ∨ w = 6 ∧ unit = 1000 ∨ w = 9 ∧ unit = 1) ∧
        frac = '.' :: ds ∧ ds.length = w ∧ Decimal ds n ∧ t.nano = n * unit ∧ (3 < w → t.nano % (1000 * unit) ≠ 0))

/-- The bytes that are read as a value of the given type. -/
def ReadsAs (fl : FloatOps) (b : Bytes) : Variant → Value → Prop
  | .string, .string s => b = utf8 s
  | .boolean, .boolean v => b = utf8 (if v then c!"True" else c!"False")
  | .integer, .integer i => ∃ s, b = utf8 s ∧ IntText s i.toInt
  | .float, .float t => ∃ s, b = utf8 s ∧ fl.reprint s = some t
  | _, _ => False

end Rops.Spec
