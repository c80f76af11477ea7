import Verif.Model.Floats
import Verif.Spec.JsonText
/-!
# Floats, independently of how they are computed
-/

namespace Rops.Spec

/-- A float: at most 53 binary digits, in units of the smallest positive float. -/
def IsFloat (v : Nat) : Prop := ∃ m e, m < 2 ^ 53 ∧ v = m * 2 ^ e

/-- A float that is not too large. -/
def InRange : F64 → Prop
  | .finite _ v => IsFloat v ∧ v < 2 ^ 1024 * 2 ^ 1074
  | .infinite _ => True
  | .nan => True

/-- Below 2 ^ 1023, half of what is too large. -/
def Moderate (v : Nat) : Prop := v * 2 < 2 ^ 1024 * 2 ^ 1074

/-- The number `n` times ten to the `e` is written as digits, possibly with a point and an exponent. -/
def DecimalText (x : Str) (n : Nat) (e : Int) : Prop :=
  ∃ ds fs ex i, Digits ds ∧ Decimal (ds ++ fs) n ∧ e = i - (fs.length : Int) ∧
    (ex = [] ∧ i = 0 ∨ ∃ c es a, (c = 'e' ∨ c = 'E') ∧ Decimal es a ∧
      (ex = c :: es ∧ i = a ∨ ex = c :: '+' :: es ∧ i = a ∨ ex = c :: '-' :: es ∧ i = -(a : Int))) ∧
    x = ds ++ (if fs = [] then [] else '.' :: fs) ++ ex

/-- The float is written in JSON with few digits: a number up to 2 ^ 53, scaled by up to 22 tens. -/
def ShortFloat (f : Str) : Prop :=
  ∃ sg x n e, serdeFloats.write f = (if sg = true then ['-'] else []) ++ x ∧ DecimalText x n e ∧ n ≤ 2 ^ 53 ∧ e.natAbs ≤ 22

/-- How far `v` is from `p / q`, times `q`. -/
def offBy (p q v : Nat) : Nat := (v * q - p) + (p - v * q)

/-- The float nearest to `p / q`; of two, the one that is an even multiple of the gap between them. -/
def Nearest (p q v : Nat) : Prop :=
  IsFloat v ∧ ∀ w, IsFloat w → offBy p q v ≤ offBy p q w ∧ (w ≠ v → offBy p q w = offBy p q v → 2 * ((w - v) + (v - w)) ∣ v)

/-- The float nearest to `n` times ten to the `e`. -/
def NearestDecimal (n : Nat) (e : Int) (v : Nat) : Prop := Nearest (n * 10 ^ e.toNat * 2 ^ 1074) (10 ^ (-e).toNat) v

/-- An exponent, possibly none. -/
def ExponentText (x : Str) (i : Int) : Prop :=
  x = [] ∧ i = 0 ∨ ∃ c es a, (c = 'e' ∨ c = 'E') ∧ Decimal es a ∧
    (x = c :: es ∧ i = a ∨ x = c :: '+' :: es ∧ i = a ∨ x = c :: '-' :: es ∧ i = -(a : Int))

/-- The number `n` times ten to the `e` is written as digits, possibly with a point anywhere, and possibly an exponent. -/
def NumberText (x : Str) (n : Nat) (e : Int) : Prop :=
  ∃ ds fs ex i, Decimal (ds ++ fs) n ∧ ExponentText ex i ∧ e = i - (fs.length : Int) ∧
    (x = ds ++ '.' :: fs ++ ex ∨ fs = [] ∧ x = ds ++ ex)

/-- A sign, possibly none. -/
def SignOf (x : Str) (negative : Bool) : Prop := x = [] ∧ negative = false ∨ x = ['+'] ∧ negative = false ∨ x = ['-'] ∧ negative = true

/-- The texts of floats, and what they stand for. -/
def FloatText (s : Str) (f : F64) : Prop :=
  ∃ sign negative x, SignOf sign negative ∧ s = sign ++ x ∧
    ((x.map Char.toLower = c!"inf" ∨ x.map Char.toLower = c!"infinity") ∧ f = .infinite negative ∨
     x.map Char.toLower = c!"nan" ∧ f = .nan ∨
     ∃ n e v, NumberText x n e ∧ NearestDecimal n e v ∧
       (v < 2 ^ 1024 * 2 ^ 1074 ∧ f = .finite negative v ∨ 2 ^ 1024 * 2 ^ 1074 ≤ v ∧ f = .infinite negative))

/-- The number has at most `m` digits before the zeros at its end. -/
def Significant (n m : Nat) : Prop := ∃ d j, n = d * 10 ^ j ∧ d < 10 ^ m

/-- No other multiple of ten to the `k` whose nearest float is `v` is nearer to `v` than `d` times ten to the `k`. -/
def ClosestDecimal (v d : Nat) (k : Int) : Prop :=
  ∀ d', NearestDecimal d' k v →
    offBy (v * 10 ^ (-k).toNat) (10 ^ k.toNat * 2 ^ 1074) d ≤ offBy (v * 10 ^ (-k).toNat) (10 ^ k.toNat * 2 ^ 1074) d'

/-- `n` times ten to the `e` is a decimal for the float `v` with as few digits as possible, zeros at the
end apart, and of those with its last digit at this place the nearest. -/
def ShortestDecimal (v n : Nat) (e : Int) : Prop :=
  NearestDecimal n e v ∧ (∀ n' e' m, NearestDecimal n' e' v → Significant n' m → Significant n m) ∧
    ∃ d j : Nat, n = d * 10 ^ j ∧ ClosestDecimal v d (e + (j : Int))

end Rops.Spec
