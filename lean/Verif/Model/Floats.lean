import Verif.Model.JsonText
/-!
# Floats

The `f64` of rops (crates/lib/src/file/map/value/core.rs:16-24, 82: `to_string`, `parse`) and what
`serde_json` (1.0.128 in Cargo.lock, without its feature `float_roundtrip`: Cargo.toml:41 and
crates/lib/Cargo.toml:66 only ask for `preserve_order`) and `ryu` (1.0.17) do with floats in JSON
texts. This is code of libraries whose source is not in /repo; it is written down from its published
behaviour, with exact arithmetic on natural numbers.

A finite float that is not negative is a natural number of the smallest positive float, 2 ^ -1074.
-/

namespace Rops

/-- One, in units of the smallest positive float. -/
def f64One : Nat := 2 ^ 1074

/-- The least power of two that is too large, 2 ^ 1024, in these units. -/
def f64Limit : Nat := 2 ^ 2098

/-- The integer nearest to `p / q`; the even one of two. -/
def roundEven (p q : Nat) : Nat :=
  if 2 * (p % q) < q ∨ 2 * (p % q) = q ∧ p / q % 2 = 0 then p / q else p / q + 1

/-- The distance of floats around `n`: they have 53 binary digits. -/
def f64Step (n : Nat) : Nat := 2 ^ (n.log2 - 52)

/-- The float nearest to `p / q`, of two the one whose last binary digit is zero; it may be too large. -/
def f64Round (p q : Nat) : Nat := roundEven p (q * f64Step (p / q)) * f64Step (p / q)

/-- The float nearest to `d` times ten to the `k`. -/
def f64OfDecimal (d : Nat) (k : Int) : Nat := f64Round (d * 10 ^ k.toNat * f64One) (10 ^ (-k).toNat)

/-- A float. -/
inductive F64 where
  | finite (negative : Bool) (v : Nat)
  | infinite (negative : Bool)
  | nan
deriving DecidableEq

/-- What is too large is infinite. -/
def F64.ofRounded (negative : Bool) (v : Nat) : F64 := if v < f64Limit then .finite negative v else .infinite negative

/-! ## Printing -/

/-- The multiples of ten to the `k` next to `v`, the nearer one first. -/
def decimalsNear (v : Nat) (k : Int) : List Nat :=
  let p := v * 10 ^ (-k).toNat
  let q := 10 ^ k.toNat * f64One
  if 2 * (p % q) < q ∨ 2 * (p % q) = q ∧ p / q % 2 = 0 then [p / q, p / q + 1] else [p / q + 1, p / q]

/-- One of them that is read as `v`. -/
def decimalAt (v : Nat) (k : Int) : Option (Nat × Int) :=
  ((decimalsNear v k).find? fun d => f64OfDecimal d k = v).map (·, k)

/-- An exponent of ten that is too large for `v`, by at most two. -/
def exponentAbove (v : Nat) : Int := ((v.log2 : Int) - 1073) * 30103 / 100000 + 2

/-- The shortest decimal that is read as `v`, if `v` is not zero: digits and the exponent of ten. The
largest possible exponent makes the fewest digits. Seventeen digits are always enough, so the last case
does not occur. -/
def shortest (v : Nat) : Nat × Int :=
  ((List.range 24).findSome? fun (i : Nat) => decimalAt v (exponentAbove v - (i : Int))).getD (v * 5 ^ 1074, -1074)

/-- Digits and an exponent of ten as text without an exponent: `Display` of `f64`. -/
def plainDecimal (d : Nat) (k : Int) : Str :=
  let ds := Nat.toDigits 10 d
  if 0 ≤ k then ds ++ List.replicate k.toNat '0'
  else
    let n := (-k).toNat
    let ds := List.replicate (n + 1 - ds.length) '0' ++ ds
    ds.take (ds.length - n) ++ '.' :: ds.drop (ds.length - n)

/-- A minus sign. -/
def signText (negative : Bool) : Str := if negative then ['-'] else []

/-- `f64::to_string` (core.rs:22). -/
def F64.show : F64 → Str
  | .nan => c!"NaN"
  | .infinite n => signText n ++ c!"inf"
  | .finite n v => signText n ++ if v = 0 then c!"0" else plainDecimal (shortest v).1 (shortest v).2

/-- An exponent as `ryu` writes it. -/
def exponentText (e : Int) : Str := 'e' :: (signText (e < 0) ++ Nat.toDigits 10 e.natAbs)

/-- `ryu::pretty::format64`, with digits and an exponent of ten. -/
def ryuDecimal (d : Nat) (k : Int) : Str :=
  let ds := Nat.toDigits 10 d
  let kk : Int := ds.length + k
  if 0 ≤ k ∧ kk ≤ 16 then ds ++ List.replicate k.toNat '0' ++ c!".0"
  else if 0 < kk ∧ kk ≤ 16 then ds.take kk.toNat ++ '.' :: ds.drop kk.toNat
  else if -5 < kk ∧ kk ≤ 0 then c!"0." ++ List.replicate (-kk).toNat '0' ++ ds
  else if ds.length = 1 then ds ++ exponentText (kk - 1)
  else ds.take 1 ++ '.' :: ds.drop 1 ++ exponentText (kk - 1)

/-- `ryu::Buffer::format_finite`. -/
def F64.ryu (negative : Bool) (v : Nat) : Str :=
  signText negative ++ if v = 0 then c!"0.0" else ryuDecimal (shortest v).1 (shortest v).2

/-! ## Reading -/

/-- A sign, possibly none. -/
def splitSign : Str → Bool × Str
  | '-' :: r => (true, r)
  | '+' :: r => (false, r)
  | r => (false, r)

/-- The exponent at the end of a number, possibly none. -/
def floatExponent : Str → Option Int
  | [] => some 0
  | c :: r => if c = 'e' ∨ c = 'E' then
      (parseNat (splitSign r).2).map fun (n : Nat) => if (splitSign r).1 then -(n : Int) else n
    else none

/-- The digits after a point, possibly none. -/
def pointDigits : Str → Str × Str
  | '.' :: r => scanDigits r
  | r => ([], r)

/-- The digits of a number that is no word, and its exponent of ten. -/
def floatDecimal (s : Str) : Option (Nat × Int) :=
  let a := scanDigits s
  let b := pointDigits a.2
  if a.1 = [] ∧ b.1 = [] then none
  else (floatExponent b.2).map fun e => (Nat.ofDigitChars 10 (a.1 ++ b.1) 0, e - b.1.length)

/-- `str::parse::<f64>` (core.rs:82); it is exact. -/
def F64.parse (s : Str) : Option F64 :=
  let r := (splitSign s).2
  let w := r.map Char.toLower
  if w = c!"inf" ∨ w = c!"infinity" then some (.infinite (splitSign s).1)
  else if w = c!"nan" then some .nan
  else (floatDecimal r).map fun d => F64.ofRounded (splitSign s).1 (f64OfDecimal d.1 d.2)

/-! ## Reading of numbers by `serde_json` -/

/-- May the digit be taken into the significand, a `u64`? -/
def fitsU64 (sig : Nat) (c : Char) : Bool := sig * 10 + (c.toNat - 48) < 2 ^ 64

/-- Digits into the significand, until one does not fit (`parse_integer`, `parse_decimal`): the
significand, the number of digits taken, and the rest. -/
def takeDigits : Nat → Str → Nat × Nat × Str
  | sig, [] => (sig, 0, [])
  | sig, c :: r => if c.isDigit ∧ fitsU64 sig c then
      let t := takeDigits (sig * 10 + (c.toNat - 48)) r
      (t.1, t.2.1 + 1, t.2.2)
    else (sig, 0, c :: r)

/-- The digits after a point, possibly none. -/
def takePoint (sig : Nat) : Str → Nat × Nat × Str
  | '.' :: r => takeDigits sig r
  | r => (sig, 0, r)

/-- Significand and exponent of ten of a number without its sign. Digits that do not fit are dropped
(`parse_long_integer`, `parse_decimal_overflow`). The exponent is an `i32` there; no number has 2 ^ 31
digits. -/
def serdeParts (s : Str) : Option (Nat × Int) :=
  let a := takeDigits 0 s
  let dropped := scanDigits a.2.2
  let b := takePoint a.1 dropped.2
  (floatExponent (scanDigits b.2.2).2).map fun e => (b.1, dropped.1.length - b.2.1 + e)

/-- `POW10`. -/
def f64Pow10 (n : Nat) : Nat := f64Round (10 ^ n * f64One) 1

/-- `f64_from_parts` after the conversion of the significand; `none` is "number out of range". The
first number bounds the recursion. -/
def serdeScale : Nat → Nat → Int → Option Nat
  | 0, _, _ => none
  | fuel + 1, f, e =>
    if e.natAbs ≤ 308 then
      if 0 ≤ e then
        let g := f64Round (f * f64Pow10 e.toNat) f64One
        if g < f64Limit then some g else none
      else some (f64Round (f * f64One) (f64Pow10 (-e).toNat))
    else if f = 0 then some f
    else if 0 ≤ e then none
    else serdeScale fuel (f64Round (f * f64One) (f64Pow10 308)) (e + 308)

/-- A minus sign, possibly none (`parse_any_number`). -/
def serdeSign : Str → Bool × Str
  | '-' :: r => (true, r)
  | r => (false, r)

/-- The float that `serde_json` reads for the text of a number. -/
def serdeRead (s : Str) : Option F64 :=
  (serdeParts (serdeSign s).2).bind fun p =>
    (serdeScale (p.2.natAbs + 1) (f64Round (p.1 * f64One) 1) p.2).map (.finite (serdeSign s).1)

/-- The floats of JSON texts, as they are written and read; in between they are given by the text
that Rust prints for them. -/
def serdeFloats : JsonFloats where
  write t := match F64.parse t with
    | some (.finite n v) => F64.ryu n v
    | _ => c!"null"
  read s := (serdeRead s).map F64.show

end Rops
