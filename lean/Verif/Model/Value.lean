import Verif.Model.Text
/-!
# Leaf values

Models crates/lib/src/file/map/value/core.rs and variant.rs.
-/

namespace Rops

/-- `RopsValueVariant` (crates/lib/src/file/map/value/variant.rs:3-13). -/
inductive Variant where
  | string | boolean | integer | float
deriving DecidableEq, Repr

/-- `AsRefStr` of the variants (variant.rs:5-12). -/
def Variant.toText : Variant → Str
  | .string => c!"str"
  | .boolean => c!"bool"
  | .integer => c!"int"
  | .float => c!"float"

/-- `EnumString` of the variants (variant.rs:5-12): exact match. -/
def Variant.parse (s : Str) : Option Variant :=
  if s = c!"str" then some .string
  else if s = c!"bool" then some .boolean
  else if s = c!"int" then some .integer
  else if s = c!"float" then some .float
  else none

/-- `RopsValue` (crates/lib/src/file/map/value/core.rs:5-11). `RopsFloat` holds
text (core.rs:16-18); it is only ever built by printing an `f64`. -/
inductive Value where
  | string (s : Str)
  | boolean (b : Bool)
  | integer (i : Int64)
  | float (text : Str)
deriving DecidableEq, Repr

/-- The `f64` operations used by rops: `reprint s` is `s.parse::<f64>()` followed
by `to_string()` (core.rs:20-24, 82). -/
structure FloatOps where
  reprint : Str → Option Str
  /-- Printing is a fixed point: Rust prints the shortest text that parses back to
  the same `f64`. -/
  reprint_idem : ∀ {s t}, reprint s = some t → reprint t = some t

/-- Text of a float value that some `f64` prints to (the invariant of
`RopsFloat`, core.rs:16-24). -/
def FloatOps.Canonical (fl : FloatOps) (t : Str) : Prop := fl.reprint t = some t

/-- Decimal text of an integer, `i64::to_string` (core.rs:68). -/
def showInt (i : Int64) : Str :=
  let n := i.toInt
  if n < 0 then '-' :: Nat.toDigits 10 n.natAbs else Nat.toDigits 10 n.natAbs

/-- Digits to a natural number; at least one digit is required. -/
def parseNat (s : Str) : Option Nat :=
  if s ≠ [] ∧ s.all Char.isDigit then some (Nat.ofDigitChars 10 s 0) else none

/-- Range check of `i64` parsing. -/
def toInt64? (n : Int) : Option Int64 :=
  if -2 ^ 63 ≤ n ∧ n < 2 ^ 63 then some (Int64.ofInt n) else none

/-- `str::parse::<i64>` (core.rs:81): optional sign, at least one digit, leading
zeros allowed, overflow rejected. -/
def parseInt (s : Str) : Option Int64 :=
  match s with
  | '-' :: ds => (parseNat ds).bind fun n => toInt64? (-(n : Int))
  | '+' :: ds => (parseNat ds).bind fun n => toInt64? n
  | ds => (parseNat ds).bind fun n => toInt64? n

namespace Value

/-- `From<&RopsValue> for RopsValueVariant` (core.rs:99-107). -/
def variant : Value → Variant
  | .string _ => .string
  | .boolean _ => .boolean
  | .integer _ => .integer
  | .float _ => .float

/-- `BOOLEAN_TRUE_BYTES` / `BOOLEAN_FALSE_BYTES` (core.rs:40-41). -/
def boolBytes : Bool → Bytes
  | true => utf8 c!"True"
  | false => utf8 c!"False"

/-- `RopsValue::as_bytes` (core.rs:61-71). -/
def asBytes : Value → Bytes
  | .string s => utf8 s
  | .boolean b => boolBytes b
  | .integer i => utf8 (showInt i)
  | .float t => utf8 t

/-- `RopsValueFromBytesError` (core.rs:87-97). -/
inductive FromBytesError where
  | utf8 | boolean (b : Bytes) | integer | float
deriving DecidableEq, Repr

/-- `RopsValue::from_bytes` (core.rs:73-84). -/
def fromBytes (fl : FloatOps) (b : Bytes) : Variant → Except FromBytesError Value
  | .string => match utf8? b with
    | some s => .ok (.string s)
    | none => .error .utf8
  | .boolean =>
    if b = boolBytes true then .ok (.boolean true)
    else if b = boolBytes false then .ok (.boolean false)
    else .error (.boolean b)
  | .integer => match utf8? b with
    | none => .error .utf8
    | some s => match parseInt s with
      | some i => .ok (.integer i)
      | none => .error .integer
  | .float => match utf8? b with
    | none => .error .utf8
    | some s => match fl.reprint s with
      | some t => .ok (.float t)
      | none => .error .float

/-- The invariant of the type `RopsValue`: float text is canonical (core.rs:16-24,
the field is private and only set from an `f64`). -/
def Canonical (fl : FloatOps) : Value → Prop
  | .float t => fl.Canonical t
  | _ => True

end Value

end Rops
