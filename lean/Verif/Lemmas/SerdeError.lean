import Verif.Lemmas.Truncated
import Mathlib.Algebra.Order.Field.Rat
import Mathlib.Tactic.Linarith
import Mathlib.Tactic.FieldSimp
import Mathlib.Tactic.Positivity
import Mathlib.Tactic.NormNum
import Mathlib.Tactic.Ring
/-!
# How far `serde_json` is from the number it reads
-/

namespace Rops
open Spec

attribute [local irreducible] f64One f64Limit

/-! ## One rounding -/

theorem round_step (p : Nat) {q : Nat} (hq : 0 < q) : 2 * offBy p q (f64Round p q) ≤ q * f64Step (p / q) := by
  have hsp := f64Step_pos (p / q)
  unfold offBy f64Round roundEven
  generalize f64Step (p / q) = u at *
  have hdm := Nat.div_add_mod p (q * u)
  have hml := Nat.mod_lt p (Nat.mul_pos hq hsp)
  generalize p / (q * u) = a at *
  generalize p % (q * u) = r at *
  have e1 : a * u * q = q * u * a := by simp only [Nat.mul_comm, Nat.mul_left_comm]
  have e2 : (a + 1) * u * q = q * u * a + q * u := by
    rw [Nat.add_mul, Nat.add_mul, e1, Nat.one_mul, Nat.mul_comm u q]
  split
  · rw [e1]
    generalize q * u * a = x at *
    generalize q * u = y at *
    omega
  · rw [e2]
    generalize q * u * a = x at *
    generalize q * u = y at *
    omega

theorem step_cases (n : Nat) : f64Step n = 1 ∨ f64Step n * 2 ^ 52 ≤ n := by
  unfold f64Step
  rcases Nat.lt_or_ge n.log2 53 with h | h
  · left
    rw [show n.log2 - 52 = 0 by omega, Nat.pow_zero]
  · right
    have hn : n ≠ 0 := by
      intro h0
      subst h0
      exact absurd h (by decide)
    rw [← Nat.pow_add, show n.log2 - 52 + 52 = n.log2 by omega]
    exact Nat.log2_self_le hn

theorem offBy_cast (p q g : Nat) : (offBy p q g : ℚ) = |(g : ℚ) * q - p| := by
  unfold offBy
  rcases Nat.le_total (g * q) p with h | h
  · rw [Nat.sub_eq_zero_of_le h, Nat.zero_add, Nat.cast_sub h, Nat.cast_mul, abs_of_nonpos]
    · ring
    · rw [sub_nonpos]; exact_mod_cast h
  · rw [Nat.sub_eq_zero_of_le h, Nat.add_zero, Nat.cast_sub h, Nat.cast_mul, abs_of_nonneg]
    rw [sub_nonneg]; exact_mod_cast h

theorem offBy_div {p q g : Nat} (hq : 0 < q) : (offBy p q g : ℚ) = |(g : ℚ) - p / q| * q := by
  have hq' : (0 : ℚ) < q := by exact_mod_cast hq
  rw [offBy_cast, ← abs_of_pos hq', ← abs_mul, abs_of_pos hq', sub_mul, div_mul_cancel₀ _ hq'.ne']

theorem round_error (p : Nat) {q : Nat} (hq : 0 < q) :
    |(f64Round p q : ℚ) - p / q| ≤ 1 / 2 ∨ |(f64Round p q : ℚ) - p / q| ≤ (p / q : ℚ) / 2 ^ 53 := by
  have hq' : (0 : ℚ) < q := by exact_mod_cast hq
  have h1 : (2 : ℚ) * (|(f64Round p q : ℚ) - p / q| * q) ≤ q * f64Step (p / q) := by
    rw [← offBy_div hq]; exact_mod_cast round_step p hq
  have h2 : 2 * |(f64Round p q : ℚ) - p / q| ≤ f64Step (p / q) := by
    have : q * (2 * |(f64Round p q : ℚ) - p / q|) ≤ q * f64Step (p / q) := by linarith
    exact le_of_mul_le_mul_left this hq'
  rcases step_cases (p / q) with h | h
  · left
    rw [h] at h2
    push_cast at h2
    linarith
  · right
    have h3 : (f64Step (p / q) : ℚ) * 2 ^ 52 ≤ (p / q : Nat) := by exact_mod_cast h
    have h4 : ((p / q : Nat) : ℚ) ≤ p / q := by
      rw [le_div_iff₀ hq']
      exact_mod_cast Nat.div_mul_le_self p q
    rw [le_div_iff₀ (by norm_num)]
    norm_num at h3 ⊢
    linarith

/-- The unit is half a unit of the last of 53 binary digits. -/
theorem round_lo_hi (p : Nat) {q : Nat} (hq : 0 < q) :
    (1 - 1 / 2 ^ 53) * (p / q : ℚ) - 1 / 2 ≤ f64Round p q ∧ (f64Round p q : ℚ) ≤ (1 + 1 / 2 ^ 53) * (p / q : ℚ) + 1 / 2 := by
  have h0 : (0 : ℚ) ≤ p / q := by positivity
  rcases round_error p hq with h | h
  · rw [abs_le] at h
    constructor <;> [skip; skip] <;> nlinarith
  · rw [abs_le] at h
    constructor <;> linarith

theorem round_lo_hi_large (p : Nat) {q : Nat} (hq : 0 < q) (hl : (2 ^ 52 : ℚ) ≤ p / q) :
    (1 - 1 / 2 ^ 53) * (p / q : ℚ) ≤ f64Round p q ∧ (f64Round p q : ℚ) ≤ (1 + 1 / 2 ^ 53) * (p / q : ℚ) := by
  rcases round_error p hq with h | h
  · rw [abs_le] at h
    norm_num at hl ⊢
    constructor <;> linarith
  · rw [abs_le] at h
    constructor <;> linarith

theorem round_zero {q : Nat} (hq : 0 < q) : f64Round 0 q = 0 := Nat.le_zero.1 (round_le_float hq ⟨0, 0, by decide, by simp⟩ (Nat.zero_le _))

theorem one_large : (2 ^ 60 : ℚ) ≤ f64One := by
  have : 2 ^ 60 ≤ f64One := by rw [f64One_eq]; exact Nat.pow_le_pow_right (by decide) (by decide)
  exact_mod_cast this

/-- The significand, as a float. -/
theorem sig_lo_hi (sig : Nat) : (1 - 1 / 2 ^ 53) * ((sig : ℚ) * f64One) ≤ f64Round (sig * f64One) 1 ∧
    (f64Round (sig * f64One) 1 : ℚ) ≤ (1 + 1 / 2 ^ 53) * ((sig : ℚ) * f64One) := by
  rcases Nat.eq_zero_or_pos sig with rfl | h
  · rw [Nat.zero_mul, round_zero (by decide)]
    simp
  · have := round_lo_hi_large (sig * f64One) (q := 1) (by decide) (by
      have h1 := one_large
      have h2 : (f64One : ℚ) ≤ sig * f64One := by exact_mod_cast Nat.le_mul_of_pos_left f64One h
      push_cast
      rw [div_one]
      exact le_trans (by norm_num) (le_trans h1 h2))
    simpa using this

theorem pow_lo_hi (n : Nat) : (1 - 1 / 2 ^ 53) * ((10 : ℚ) ^ n * f64One) ≤ f64Pow10 n ∧
    (f64Pow10 n : ℚ) ≤ (1 + 1 / 2 ^ 53) * ((10 : ℚ) ^ n * f64One) := by
  have := sig_lo_hi (10 ^ n)
  unfold f64Pow10
  simpa using this

theorem pow_pos' (n : Nat) : 0 < f64Pow10 n := Nat.lt_of_lt_of_le f64One_pos (one_le_pow10 n)

/-! ## Scaling -/

/-- A quotient by a power of ten that is not one. -/
theorem quotient_lo_hi {f n : Nat} (hn : 1 ≤ n) {S lo hi h : ℚ} (hS : 0 ≤ S) (hh : 0 ≤ h) (hlo : 0 ≤ lo) (hhi : 0 ≤ hi)
    (h1 : lo * S - h ≤ f) (h2 : f ≤ hi * S + h) :
    lo * (1 - 3 / 2 ^ 53) * (S / 10 ^ n) - (h / 5 + 1 / 2) ≤ f64Round (f * f64One) (f64Pow10 n) ∧
    (f64Round (f * f64One) (f64Pow10 n) : ℚ) ≤ hi * (1 + 25 / 2 ^ 56) * (S / 10 ^ n) + (h / 5 + 1 / 2) := by
  obtain ⟨p1, p2⟩ := pow_lo_hi n
  obtain ⟨r1, r2⟩ := round_lo_hi (f * f64One) (pow_pos' n)
  have hO : (0 : ℚ) < f64One := lt_of_lt_of_le (by norm_num) one_large
  have hP : (0 : ℚ) < f64Pow10 n := by exact_mod_cast pow_pos' n
  have hT : (10 : ℚ) ≤ 10 ^ n := by
    calc (10 : ℚ) = 10 ^ 1 := (pow_one _).symm
      _ ≤ 10 ^ n := pow_le_pow_right₀ (by norm_num) hn
  have hf : (0 : ℚ) ≤ f := by positivity
  push_cast at r1 r2
  generalize (f64Round (f * f64One) (f64Pow10 n) : ℚ) = G at *
  generalize (f64Pow10 n : ℚ) = P at *
  generalize (f64One : ℚ) = O at *
  generalize (f : ℚ) = F at *
  generalize (10 : ℚ) ^ n = T at *
  have hT0 : (0 : ℚ) < T := by linarith
  -- the quotient of floats
  have y1 : F * O / P ≤ (1 + 2 / 2 ^ 53) * (F / T) := by
    rw [div_le_iff₀ hP]
    have : F * O = (F / T) * (T * O) := by field_simp
    rw [this]
    have hFT : 0 ≤ F / T := by positivity
    have h3 : (1 - 1 / 2 ^ 53) * (T * O) * ((F / T) * (1 + 2 / 2 ^ 53)) ≤ P * ((F / T) * (1 + 2 / 2 ^ 53)) :=
      mul_le_mul_of_nonneg_right p1 (by positivity)
    have h4 : 0 ≤ (F / T) * (T * O) := by positivity
    have h5 : (1 : ℚ) ≤ (1 - 1 / 2 ^ 53) * (1 + 2 / 2 ^ 53) := by norm_num
    have h6 : (F / T) * (T * O) * 1 ≤ (F / T) * (T * O) * ((1 - 1 / 2 ^ 53) * (1 + 2 / 2 ^ 53)) := mul_le_mul_of_nonneg_left h5 h4
    linarith
  have y2 : (1 - 1 / 2 ^ 53) * (F / T) ≤ F * O / P := by
    rw [le_div_iff₀ hP]
    have : F * O = (F / T) * (T * O) := by field_simp
    rw [this]
    have hFT : 0 ≤ F / T := by positivity
    have h3 : P * ((F / T) * (1 - 1 / 2 ^ 53)) ≤ (1 + 1 / 2 ^ 53) * (T * O) * ((F / T) * (1 - 1 / 2 ^ 53)) :=
      mul_le_mul_of_nonneg_right p2 (mul_nonneg hFT (by norm_num))
    have h4 : 0 ≤ (F / T) * (T * O) := by positivity
    have h5 : (1 - 1 / 2 ^ 53 : ℚ) * (1 + 1 / 2 ^ 53) ≤ 1 := by norm_num
    have h6 : (F / T) * (T * O) * ((1 - 1 / 2 ^ 53) * (1 + 1 / 2 ^ 53)) ≤ (F / T) * (T * O) * 1 := mul_le_mul_of_nonneg_left h5 h4
    linarith
  have hTh : h / T ≤ h / 10 := div_le_div_of_nonneg_left hh (by norm_num) hT
  have hTh0 : 0 ≤ h / T := by positivity
  have z1 : lo * (S / T) - h / T ≤ F / T := by
    rw [← mul_div_assoc, ← sub_div]; exact div_le_div_of_nonneg_right h1 hT0.le
  have z2 : F / T ≤ hi * (S / T) + h / T := by
    rw [← mul_div_assoc, ← add_div]; exact div_le_div_of_nonneg_right h2 hT0.le
  have hW : 0 ≤ S / T := by positivity
  have hloW : 0 ≤ lo * (S / T) := by positivity
  have hhiW : 0 ≤ hi * (S / T) := by positivity
  have hFT : 0 ≤ F / T := by positivity
  rw [mul_right_comm lo, mul_right_comm hi]
  generalize lo * (S / T) = L at *
  generalize hi * (S / T) = H at *
  generalize h / T = k at *
  generalize F / T = Q at *
  generalize F * O / P = Y at *
  norm_num at *
  constructor <;> nlinarith

/-- A product with a power of ten. -/
theorem product_lo_hi (sig n : Nat) :
    (1 - 4 / 2 ^ 53) * ((sig : ℚ) * 10 ^ n * f64One) ≤ f64Round (f64Round (sig * f64One) 1 * f64Pow10 n) f64One ∧
    (f64Round (f64Round (sig * f64One) 1 * f64Pow10 n) f64One : ℚ) ≤ (1 + 4 / 2 ^ 53) * ((sig : ℚ) * 10 ^ n * f64One) := by
  rcases Nat.eq_zero_or_pos sig with rfl | hs
  · rw [Nat.zero_mul, round_zero (by decide), Nat.zero_mul, round_zero f64One_pos]
    simp
  obtain ⟨p1, p2⟩ := pow_lo_hi n
  obtain ⟨f1, f2⟩ := sig_lo_hi sig
  have hone := one_large
  have hO : (0 : ℚ) < f64One := lt_of_lt_of_le (by norm_num) one_large
  have hs' : (1 : ℚ) ≤ sig := by exact_mod_cast hs
  have hT : (1 : ℚ) ≤ 10 ^ n := one_le_pow₀ (by norm_num)
  have hr := round_lo_hi_large (f64Round (sig * f64One) 1 * f64Pow10 n) f64One_pos
  push_cast at hr
  generalize (f64Round (f64Round (sig * f64One) 1 * f64Pow10 n) f64One : ℚ) = G at *
  generalize (f64Round (sig * f64One) 1 : ℚ) = F at *
  generalize (f64Pow10 n : ℚ) = P at *
  generalize (f64One : ℚ) = O at *
  generalize (sig : ℚ) = s at *
  generalize (10 : ℚ) ^ n = T at *
  have hF : 0 ≤ F := le_trans (mul_nonneg (by norm_num) (by positivity)) f1
  have hP : 0 ≤ P := le_trans (mul_nonneg (by norm_num) (by positivity)) p1
  have y1 : (1 - 1 / 2 ^ 53) ^ 2 * (s * T * O) ≤ F * P / O := by
    rw [le_div_iff₀ hO]
    calc (1 - 1 / 2 ^ 53) ^ 2 * (s * T * O) * O = ((1 - 1 / 2 ^ 53) * (s * O)) * ((1 - 1 / 2 ^ 53) * (T * O)) := by ring
      _ ≤ F * P := mul_le_mul f1 p1 (mul_nonneg (by norm_num) (by positivity)) hF
  have y2 : F * P / O ≤ (1 + 1 / 2 ^ 53) ^ 2 * (s * T * O) := by
    rw [div_le_iff₀ hO]
    calc F * P ≤ ((1 + 1 / 2 ^ 53) * (s * O)) * ((1 + 1 / 2 ^ 53) * (T * O)) := mul_le_mul f2 p2 hP (by positivity)
      _ = (1 + 1 / 2 ^ 53) ^ 2 * (s * T * O) * O := by ring
  have hst : 1 ≤ s * T := by nlinarith
  have hZ : O ≤ s * T * O := by nlinarith
  obtain ⟨r1, r2⟩ := hr (by norm_num at *; linarith)
  generalize F * P / O = Y at *
  generalize s * T * O = Z at *
  norm_num at *
  constructor <;> linarith

/-! ## The whole -/

theorem scale_small_negative {fuel f : Nat} {e : Int} (he : e < 0) (hl : e.natAbs ≤ 308) :
    serdeScale (fuel + 1) f e = some (f64Round (f * f64One) (f64Pow10 (-e).toNat)) := by
  rw [serdeScale, if_pos hl, if_neg (by omega)]

theorem scale_negative {fuel f : Nat} {e : Int} (he : e < 0) (hl : 308 < e.natAbs) :
    serdeScale (fuel + 1) f e = if f = 0 then some f else serdeScale fuel (f64Round (f * f64One) (f64Pow10 308)) (e + 308) := by
  rw [serdeScale, if_neg (by omega)]
  split
  · rfl
  · rw [if_neg (by omega)]

theorem scale_zero {fuel : Nat} {e : Int} (he : e < 0) : serdeScale (fuel + 1) 0 e = some 0 := by
  rcases Nat.lt_or_ge 308 e.natAbs with h | h
  · rw [scale_negative he h, if_pos rfl]
  · rw [scale_small_negative he h, Nat.zero_mul, round_zero (pow_pos' _)]

/-- Two steps. -/
theorem scale_two {fuel f : Nat} {e : Int} (he : e < -308) (hl : -616 ≤ e) :
    serdeScale (fuel + 2) f e = some (f64Round (f64Round (f * f64One) (f64Pow10 308) * f64One) (f64Pow10 (-(e + 308)).toNat)) := by
  rw [scale_negative (by omega) (by omega)]
  split
  · rename_i h0
    subst h0
    rw [Nat.zero_mul, round_zero (pow_pos' _), Nat.zero_mul, round_zero (pow_pos' _)]
  · rw [scale_small_negative (by omega) (by omega)]

theorem pow308 : 2 ^ 1023 * f64One ≤ f64Pow10 308 := by
  refine float_le_round (by decide) ?_ ?_
  · rw [f64One_eq]
    exact ⟨1, 1023 + 1074, by decide, by rw [Nat.pow_add, Nat.one_mul]⟩
  · rw [Nat.mul_one]
    exact Nat.mul_le_mul_right _ (by decide +kernel)

theorem twice_zero {sig : Nat} (hs : sig < 2 ^ 64) :
    f64Round (f64Round (f64Round (sig * f64One) 1 * f64One) (f64Pow10 308) * f64One) (f64Pow10 308) = 0 := by
  have h1 : f64Round (sig * f64One) 1 ≤ 2 ^ 64 * f64One := by
    refine round_le_float (by decide) ?_ ?_
    · rw [f64One_eq]
      exact ⟨1, 64 + 1074, by decide, by rw [Nat.pow_add, Nat.one_mul]⟩
    · rw [Nat.mul_one]
      exact Nat.mul_le_mul_right _ (Nat.le_of_lt hs)
  generalize f64Round (sig * f64One) 1 = f at *
  have hp := pow308
  have h2 : f64Round (f * f64One) (f64Pow10 308) ≤ 2 ^ 200 := by
    refine round_le_float (pow_pos' _) ⟨1, 200, by decide, by rw [Nat.one_mul]⟩ ?_
    refine Nat.le_trans (Nat.mul_le_mul_right _ h1) (Nat.le_trans ?_ (Nat.mul_le_mul_left _ hp))
    rw [← Nat.mul_assoc]
    refine Nat.mul_le_mul_right _ ?_
    rw [f64One_eq, ← Nat.pow_add, ← Nat.pow_add]
    exact Nat.pow_le_pow_right (by decide) (by decide)
  generalize f64Round (f * f64One) (f64Pow10 308) = f1 at *
  have h3 := round_nearest (p := f1 * f64One) (w := 0) (pow_pos' 308) ⟨0, 0, by decide, by simp⟩
  refine Decidable.byContradiction fun hne => ?_
  have h4 : f64Pow10 308 ≤ f64Round (f1 * f64One) (f64Pow10 308) * f64Pow10 308 := Nat.le_mul_of_pos_left _ (by omega)
  have h5 : f1 * f64One ≤ 2 ^ 200 * f64One := Nat.mul_le_mul_right _ h2
  have h6 : 2 * (2 ^ 200 * f64One) < f64Pow10 308 := by
    refine Nat.lt_of_lt_of_le ?_ hp
    rw [← Nat.mul_assoc]
    exact Nat.mul_lt_mul_of_pos_right (by decide +kernel) f64One_pos
  rw [Nat.zero_mul] at h3
  generalize f64Round (f1 * f64One) (f64Pow10 308) * f64Pow10 308 = x at *
  generalize f1 * f64One = y at *
  generalize 2 ^ 200 * f64One = z at *
  omega

/-- Many steps end at zero. -/
theorem scale_many {fuel sig : Nat} {e : Int} (hs : sig < 2 ^ 64) (he : e < -616) :
    serdeScale (fuel + 3) (f64Round (sig * f64One) 1) e = some 0 := by
  have h0 := twice_zero hs
  generalize f64Round (sig * f64One) 1 = f at *
  rw [scale_negative (by omega) (by omega)]
  split
  · rename_i h; rw [h]
  · rw [scale_negative (by omega) (by omega)]
    split
    · rename_i h; rw [h]
    · rw [h0, scale_zero (by omega)]

theorem ten_zpow_neg {e : Int} (he : e < 0) : (10 : ℚ) ^ e = 1 / 10 ^ (-e).toNat := by
  obtain ⟨n, rfl⟩ : ∃ n : Nat, e = -(n : Int) := ⟨(-e).toNat, by omega⟩
  rw [zpow_neg, zpow_natCast, one_div]
  simp

theorem zpow_pos' {e : Int} (he : 0 ≤ e) : (10 : ℚ) ^ e = 10 ^ e.toNat := by
  obtain ⟨n, rfl⟩ : ∃ n : Nat, e = n := ⟨e.toNat, by omega⟩
  rw [zpow_natCast]
  simp

/-- What is computed for a significand and an exponent. -/
theorem scale_close {sig : Nat} {e : Int} (hs : sig < 2 ^ 64) :
    (∀ g, serdeScale (e.natAbs + 1) (f64Round (sig * f64One) 1) e = some g →
      |(g : ℚ) - sig * 10 ^ e * f64One| ≤ 15 / 2 ^ 54 * (sig * 10 ^ e * f64One) + 1) ∧
    (serdeScale (e.natAbs + 1) (f64Round (sig * f64One) 1) e = none →
      (f64Limit : ℚ) ≤ (1 + 4 / 2 ^ 53) * (sig * 10 ^ e * f64One)) := by
  have hO : (0 : ℚ) < f64One := lt_of_lt_of_le (by norm_num) one_large
  obtain ⟨f1, f2⟩ := sig_lo_hi sig
  have hS : (0 : ℚ) ≤ sig * f64One := by positivity
  have hone := one_large
  rcases Int.lt_or_le e 0 with he | he
  · rcases Int.lt_or_le e (-308) with he1 | he1
    · rcases Int.lt_or_le e (-616) with he2 | he2
      · obtain ⟨fuel, hfuel⟩ : ∃ fuel, e.natAbs + 1 = fuel + 3 := ⟨e.natAbs - 2, by omega⟩
        rw [hfuel, scale_many hs he2]
        refine ⟨fun g hg => ?_, nofun⟩
        cases hg
        have hz : (sig : ℚ) * 10 ^ e * f64One ≤ 1 := by
          rw [ten_zpow_neg he]
          have h1 : sig * f64One ≤ 10 ^ (-e).toNat := by
            refine Nat.le_trans (Nat.mul_le_mul_right _ (Nat.le_of_lt hs)) (Nat.le_trans ?_ (Nat.pow_le_pow_right (by decide) (show 616 ≤ (-e).toNat by omega)))
            rw [f64One_eq]
            decide +kernel
          have h2 : (sig : ℚ) * f64One ≤ 10 ^ (-e).toNat := by exact_mod_cast h1
          have h3 : (0 : ℚ) < 10 ^ (-e).toNat := by positivity
          rw [mul_right_comm, mul_one_div, div_le_one h3]
          exact h2
        have hz0 : (0 : ℚ) ≤ (sig : ℚ) * 10 ^ e * f64One := mul_nonneg (mul_nonneg (by positivity) (zpow_pos (by norm_num) e).le) hO.le
        rw [Nat.cast_zero, zero_sub, abs_neg, abs_of_nonneg hz0]
        nlinarith
      · obtain ⟨fuel, hfuel⟩ : ∃ fuel, e.natAbs + 1 = fuel + 2 := ⟨e.natAbs - 1, by omega⟩
        rw [hfuel, scale_two he1 he2]
        refine ⟨fun g hg => ?_, nofun⟩
        cases hg
        obtain ⟨a1, a2⟩ := quotient_lo_hi (f := f64Round (sig * f64One) 1) (n := 308) (by decide) hS (le_refl 0)
          (lo := 1 - 1 / 2 ^ 53) (hi := 1 + 1 / 2 ^ 53) (by norm_num) (by norm_num) (by rw [sub_zero]; exact f1) (by rw [add_zero]; exact f2)
        obtain ⟨b1, b2⟩ := quotient_lo_hi (n := (-(e + 308)).toNat) (by omega) (by positivity) (by norm_num) (by norm_num) (by norm_num) a1 a2
        have hpow : (sig : ℚ) * f64One / 10 ^ 308 / 10 ^ (-(e + 308)).toNat = sig * 10 ^ e * f64One := by
          rw [ten_zpow_neg he, div_div, ← pow_add, show 308 + (-(e + 308)).toNat = (-e).toNat by omega]
          ring
        rw [hpow] at b1 b2
        have hz0 : (0 : ℚ) ≤ (sig : ℚ) * 10 ^ e * f64One := mul_nonneg (mul_nonneg (by positivity) (zpow_pos (by norm_num) e).le) hO.le
        generalize (sig : ℚ) * 10 ^ e * f64One = Z at *
        rw [abs_le]
        norm_num at b1 b2 ⊢
        constructor <;> linarith
    · rw [scale_small_negative he (by omega)]
      refine ⟨fun g hg => ?_, nofun⟩
      cases hg
      obtain ⟨a1, a2⟩ := quotient_lo_hi (f := f64Round (sig * f64One) 1) (n := (-e).toNat) (by omega) hS (le_refl 0)
        (lo := 1 - 1 / 2 ^ 53) (hi := 1 + 1 / 2 ^ 53) (by norm_num) (by norm_num) (by rw [sub_zero]; exact f1) (by rw [add_zero]; exact f2)
      have hpow : (sig : ℚ) * f64One / 10 ^ (-e).toNat = sig * 10 ^ e * f64One := by
        rw [ten_zpow_neg he]
        ring
      rw [hpow] at a1 a2
      have hz0 : (0 : ℚ) ≤ (sig : ℚ) * 10 ^ e * f64One := mul_nonneg (mul_nonneg (by positivity) (zpow_pos (by norm_num) e).le) hO.le
      generalize (sig : ℚ) * 10 ^ e * f64One = Z at *
      rw [abs_le]
      norm_num at a1 a2 ⊢
      constructor <;> linarith
  · obtain ⟨a1, a2⟩ := product_lo_hi sig e.toNat
    rw [← zpow_pos' he] at a1 a2
    have hz0 : (0 : ℚ) ≤ (sig : ℚ) * 10 ^ e * f64One := mul_nonneg (mul_nonneg (by positivity) (zpow_pos (by norm_num) e).le) hO.le
    rw [serdeScale]
    split
    · simp only
      split
      · refine ⟨fun g hg => ?_, nofun⟩
        cases hg
        generalize (sig : ℚ) * 10 ^ e * f64One = Z at *
        rw [abs_le]
        norm_num at a1 a2 ⊢
        constructor <;> linarith
      · rename_i hlim
        refine ⟨nofun, fun _ => ?_⟩
        have h1 : f64Limit ≤ f64Round (f64Round (sig * f64One) 1 * f64Pow10 e.toNat) f64One := by omega
        have h2 : (f64Limit : ℚ) ≤ f64Round (f64Round (sig * f64One) 1 * f64Pow10 e.toNat) f64One := by exact_mod_cast h1
        exact le_trans h2 a2
    · rename_i hbig
      split
      · rename_i h0
        refine ⟨fun g hg => ?_, nofun⟩
        cases hg
        rw [h0] at f1 ⊢
        have hs0 : (sig : ℚ) = 0 := by
          by_contra hne
          have : (0 : ℚ) < sig := lt_of_le_of_ne (by positivity) (Ne.symm hne)
          have h3 : (0 : ℚ) < (1 - 1 / 2 ^ 53) * (sig * f64One) := mul_pos (by norm_num) (by positivity)
          push_cast at f1
          linarith
        rw [hs0]
        simp
      · rename_i h0
        refine ⟨nofun, fun _ => ?_⟩
        have hpos : 1 ≤ sig := by
          rcases Nat.eq_zero_or_pos sig with rfl | h
          · exact absurd (by rw [Nat.zero_mul]; exact round_zero (by decide)) h0
          · exact h
        have h1 : f64Limit ≤ 1 * 10 ^ e.toNat * f64One := by
          rw [f64Limit_eq, Nat.one_mul, f64One_eq]
          refine Nat.mul_le_mul_right _ (Nat.le_trans ?_ (Nat.pow_le_pow_right (by decide) (show 309 ≤ e.toNat by omega)))
          decide +kernel
        have h2 : f64Limit ≤ sig * 10 ^ e.toNat * f64One :=
          Nat.le_trans h1 (Nat.mul_le_mul_right _ (Nat.mul_le_mul_right _ hpos))
        have h3 : (f64Limit : ℚ) ≤ sig * 10 ^ e.toNat * f64One := by exact_mod_cast h2
        rw [← zpow_pos' he] at h3
        norm_num
        linarith

/-- What is read for the text of a number. -/
theorem read_close {x : Str} {n : Nat} {e : Int} (h : DecimalText x n e) (sg : Bool) :
    (∀ f, serdeRead (signText sg ++ x) = some f → ∃ g : Nat, f = .finite sg g ∧
      |(g : ℚ) - n * 10 ^ e * f64One| ≤ 1 / 2 ^ 50 * (n * 10 ^ e * f64One) + 1) ∧
    (serdeRead (signText sg ++ x) = none → (f64Limit : ℚ) ≤ (1 + 1 / 2 ^ 50) * (n * 10 ^ e * f64One)) := by
  obtain ⟨ds, fs, ex, i, h1, h0, h2, h3, h4, h5, rfl, rfl, rfl⟩ := decimalText_parts h
  have hw : Written (ds ++ (if fs = [] then [] else '.' :: fs) ++ ex) (f64OfDecimal (Nat.ofDigitChars 10 (ds ++ fs) 0) (i - fs.length)) :=
    ⟨ds, fs, ex, i, h1, h0, h2, h3, ⟨h4, h5⟩, rfl, rfl⟩
  obtain ⟨sig, j, g1, g2, g3⟩ := serdeParts_close h1 h2 h4 h5 h3
  unfold serdeRead
  rw [serdeSign_signText sg hw.head, g1]
  simp only [Option.bind_some]
  obtain ⟨s1, s2⟩ := scale_close (e := i - fs.length + (j : Int)) g2
  generalize Nat.ofDigitChars 10 (ds ++ fs) 0 = n at *
  generalize i - (fs.length : Int) = e at *
  generalize hscale : serdeScale ((e + (j : Int)).natAbs + 1) (f64Round (sig * f64One) 1) (e + (j : Int)) = res at *
  have hO : (0 : ℚ) < f64One := lt_of_lt_of_le (by norm_num) one_large
  have h10 : (0 : ℚ) < 10 ^ e := zpow_pos (by norm_num) e
  have hoff : |(n : ℚ) - sig * 10 ^ j| * 2 ^ 60 ≤ n := by
    have e1 : ((n - sig * 10 ^ j + (sig * 10 ^ j - n) : Nat) : ℚ) = |(n : ℚ) - sig * 10 ^ j| := by
      have := offBy_cast (sig * 10 ^ j) 1 n
      unfold offBy at this
      rw [Nat.mul_one, Nat.cast_one, mul_one] at this
      rw [this]
      push_cast
      rfl
    rw [← e1]
    exact_mod_cast g3
  have hZ : |(n : ℚ) * 10 ^ e * f64One - sig * 10 ^ (e + (j : Int)) * f64One| * 2 ^ 60 ≤ n * 10 ^ e * f64One := by
    rw [zpow_add₀ (by norm_num), zpow_natCast,
      show (n : ℚ) * 10 ^ e * f64One - sig * (10 ^ e * 10 ^ j) * f64One = (n - sig * 10 ^ j) * (10 ^ e * f64One) by ring,
      abs_mul, abs_of_pos (mul_pos h10 hO)]
    have := mul_le_mul_of_nonneg_right hoff (mul_pos h10 hO).le
    linarith
  generalize (sig : ℚ) * 10 ^ (e + (j : Int)) * f64One = Z at *
  generalize (n : ℚ) * 10 ^ e * f64One = X at *
  have hX : X - Z ≤ X / 2 ^ 60 ∧ Z - X ≤ X / 2 ^ 60 := by
    rw [le_div_iff₀ (by norm_num), le_div_iff₀ (by norm_num)]
    exact ⟨le_trans (mul_le_mul_of_nonneg_right (le_abs_self _) (by norm_num)) hZ,
      le_trans (mul_le_mul_of_nonneg_right (by rw [← neg_sub]; exact neg_le_abs _) (by norm_num)) hZ⟩
  have hX0 : 0 ≤ X := le_trans (by positivity) hZ
  cases res with
  | none =>
    refine ⟨nofun, fun _ => ?_⟩
    have := s2 rfl
    norm_num at *
    linarith
  | some g =>
    refine ⟨fun f hf => ?_, nofun⟩
    cases hf
    refine ⟨g, rfl, ?_⟩
    have := s1 g rfl
    rw [abs_le] at this ⊢
    norm_num at *
    constructor <;> linarith

theorem decimal_quotient (n : Nat) (e : Int) :
    ((n * 10 ^ e.toNat * f64One : Nat) : ℚ) / ((10 ^ (-e).toNat : Nat) : ℚ) = n * 10 ^ e * f64One := by
  rcases Int.lt_or_le e 0 with he | he
  · rw [ten_zpow_neg he, show e.toNat = 0 by omega]
    push_cast
    ring
  · rw [zpow_pos' he, show (-e).toNat = 0 by omega]
    push_cast
    ring

/-- The same without fractions. -/
theorem serdeRead_close {x : Str} {n : Nat} {e : Int} (h : DecimalText x n e) (sg : Bool) :
    (∀ f, serdeRead (signText sg ++ x) = some f → ∃ g : Nat, f = .finite sg g ∧
      offBy (n * 10 ^ e.toNat * f64One) (10 ^ (-e).toNat) g * 2 ^ 50 ≤ n * 10 ^ e.toNat * f64One + 10 ^ (-e).toNat * 2 ^ 50) ∧
    (serdeRead (signText sg ++ x) = none → f64Limit * 2 ^ 50 * 10 ^ (-e).toNat ≤ (2 ^ 50 + 1) * (n * 10 ^ e.toNat * f64One)) := by
  obtain ⟨h1, h2⟩ := read_close h sg
  have hq : 0 < 10 ^ (-e).toNat := Nat.pow_pos (by decide)
  have hq' : (0 : ℚ) < ((10 ^ (-e).toNat : Nat) : ℚ) := by exact_mod_cast hq
  rw [← decimal_quotient] at h1 h2
  generalize n * 10 ^ e.toNat * f64One = p at *
  generalize 10 ^ (-e).toNat = q at *
  have hpq : (p : ℚ) / q * q = p := div_mul_cancel₀ _ hq'.ne'
  refine ⟨fun f hf => ?_, fun hn => ?_⟩
  · obtain ⟨g, rfl, hg⟩ := h1 f hf
    refine ⟨g, rfl, ?_⟩
    have h3 : (offBy p q g : ℚ) * 2 ^ 50 ≤ p + q * 2 ^ 50 := by
      rw [offBy_div hq]
      have := mul_le_mul_of_nonneg_right hg hq'.le
      rw [add_mul, mul_assoc, hpq] at this
      norm_num at *
      linarith
    exact_mod_cast h3
  · have h3 := mul_le_mul_of_nonneg_right (h2 hn) hq'.le
    rw [mul_assoc, hpq] at h3
    have h4 : (f64Limit : ℚ) * 2 ^ 50 * q ≤ (2 ^ 50 + 1) * p := by
      norm_num at *
      linarith
    exact_mod_cast h4

/-- What is written for a float is read as a float near it. -/
theorem drift_close {x : Str} {n : Nat} {e : Int} {v : Nat} (h : DecimalText x n e) (hv : f64OfDecimal n e = v) (sg : Bool)
    (hl : v * 2 < f64Limit) :
    ∃ g : Nat, serdeRead (signText sg ++ x) = some (.finite sg g) ∧ ((g - v) + (v - g)) * 2 ^ 49 ≤ v + 2 ^ 50 := by
  obtain ⟨h1, h2⟩ := read_close h sg
  have hq : 0 < 10 ^ (-e).toNat := Nat.pow_pos (by decide)
  obtain ⟨r1, r2⟩ := round_lo_hi (n * 10 ^ e.toNat * f64One) hq
  rw [decimal_quotient] at r1 r2
  unfold f64OfDecimal at hv
  rw [hv] at r1 r2
  have hlim : (v : ℚ) * 2 ≤ f64Limit := by
    have : v * 2 ≤ f64Limit := Nat.le_of_lt hl
    exact_mod_cast this
  have hlarge : (2 ^ 60 : ℚ) ≤ f64Limit := by
    have : 2 ^ 60 ≤ f64Limit := by
      rw [f64Limit_eq, ← Nat.pow_add]
      exact Nat.pow_le_pow_right (by decide) (by decide)
    exact_mod_cast this
  have hX0 : (0 : ℚ) ≤ n * 10 ^ e * f64One := mul_nonneg (mul_nonneg (Nat.cast_nonneg _) (zpow_pos (by norm_num) e).le) (Nat.cast_nonneg _)
  generalize (n : ℚ) * 10 ^ e * f64One = X at *
  cases hr : serdeRead (signText sg ++ x) with
  | none =>
    exfalso
    have := h2 hr
    clear h1 h2 hl hv hr
    generalize (f64Limit : ℚ) = L at *
    norm_num at *
    linarith
  | some f =>
    obtain ⟨g, rfl, hg⟩ := h1 f hr
    refine ⟨g, rfl, ?_⟩
    have e1 : ((g - v + (v - g) : Nat) : ℚ) = |(g : ℚ) - v| := by
      have := offBy_cast v 1 g
      unfold offBy at this
      rwa [Nat.mul_one, Nat.cast_one, mul_one] at this
    have h3 : ((g - v + (v - g) : Nat) : ℚ) * 2 ^ 49 ≤ v + 2 ^ 50 := by
      rw [e1, ← le_div_iff₀ (by norm_num), abs_le]
      rw [abs_le] at hg
      norm_num at *
      constructor <;> linarith
    exact_mod_cast h3

end Rops
