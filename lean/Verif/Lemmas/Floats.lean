import Verif.Spec.Floats
import Verif.Lemmas.JsonText
import Verif.Lemmas.Messages
/-! Floats: rounding, printing and reading. -/

namespace Rops
open Spec

/-! ## Rounding -/

theorem roundEven_scale {c : Nat} (hc : 0 < c) (p q : Nat) : roundEven (p * c) (q * c) = roundEven p q := by
  unfold roundEven
  rw [Nat.mul_mod_mul_right, Nat.mul_div_mul_right _ _ hc, ← Nat.mul_assoc]
  have h1 : 2 * (p % q) * c < q * c ↔ 2 * (p % q) < q := Nat.mul_lt_mul_right hc
  have h2 : 2 * (p % q) * c = q * c ↔ 2 * (p % q) = q := Nat.mul_left_inj (by omega)
  simp only [h1, h2]

theorem roundEven_exact {q : Nat} (hq : 0 < q) (a : Nat) : roundEven (a * q) q = a := by
  unfold roundEven
  rw [Nat.mul_mod_left, Nat.mul_div_cancel _ hq, if_pos (.inl (by omega))]

theorem roundEven_bounds (p q : Nat) : p / q ≤ roundEven p q ∧ roundEven p q ≤ p / q + 1 := by
  unfold roundEven
  split <;> omega

theorem f64Step_pos (n : Nat) : 0 < f64Step n := Nat.two_pow_pos _

theorem f64Round_scale {c : Nat} (hc : 0 < c) (p q : Nat) : f64Round (p * c) (q * c) = f64Round p q := by
  unfold f64Round
  rw [Nat.mul_div_mul_right _ _ hc, show q * c * f64Step (p / q) = q * f64Step (p / q) * c by
    rw [Nat.mul_assoc, Nat.mul_comm c, ← Nat.mul_assoc], roundEven_scale hc]

/-- Equal fractions are rounded alike. -/
theorem f64Round_congr {p q p' q' : Nat} (hq : 0 < q) (hq' : 0 < q') (h : p * q' = p' * q) : f64Round p q = f64Round p' q' := by
  rw [← f64Round_scale hq' p q, ← f64Round_scale hq p' q', h, Nat.mul_comm q q']

theorem f64Round_exact {v q : Nat} (hq : 0 < q) (hv : f64Step v ∣ v) : f64Round (v * q) q = v := by
  obtain ⟨a, ha⟩ := hv
  unfold f64Round
  rw [Nat.mul_div_cancel _ hq]
  have : v * q = a * (q * f64Step v) := by
    calc v * q = f64Step v * a * q := by rw [← ha]
      _ = a * (q * f64Step v) := by rw [Nat.mul_comm (f64Step v), Nat.mul_assoc, Nat.mul_comm q]
  rw [this, roundEven_exact (Nat.mul_pos hq (f64Step_pos v)), Nat.mul_comm, ← ha]

theorem log2_mul_pow {m : Nat} (hm : m ≠ 0) (e : Nat) : (m * 2 ^ e).log2 = m.log2 + e := by
  rw [Nat.log2_eq_iff (Nat.mul_ne_zero hm (by simp))]
  have h1 := Nat.log2_self_le hm
  have h2 := Nat.lt_log2_self (n := m)
  constructor
  · rw [Nat.pow_add]; exact Nat.mul_le_mul_right _ h1
  · rw [show m.log2 + e + 1 = (m.log2 + 1) + e by omega, Nat.pow_add]; exact Nat.mul_lt_mul_of_pos_right h2 (Nat.two_pow_pos e)

theorem log2_lt {m k : Nat} (h : m < 2 ^ (k + 1)) : m.log2 ≤ k := by
  by_cases hm : m = 0
  · subst hm; simp
  · have := (Nat.log2_lt hm).2 h; omega

/-- A number of 53 binary digits is a multiple of the step at it. -/
theorem step_dvd_of_isFloat {v : Nat} (h : IsFloat v) : f64Step v ∣ v := by
  obtain ⟨m, e, hm, rfl⟩ := h
  by_cases h0 : m = 0
  · subst h0; simp
  · unfold f64Step
    rw [log2_mul_pow h0]
    exact Nat.dvd_trans (Nat.pow_dvd_pow 2 (by have := log2_lt (m := m) (k := 52) hm; omega)) (Nat.dvd_mul_left _ _)

theorem isFloat_of_step_dvd {v : Nat} (h : f64Step v ∣ v) : IsFloat v := by
  by_cases h0 : v = 0
  · exact ⟨0, 0, by decide, by simp [h0]⟩
  obtain ⟨a, ha⟩ := h
  refine ⟨a, v.log2 - 52, ?_, by rw [Nat.mul_comm]; exact ha⟩
  have h2 := Nat.lt_log2_self (n := v)
  unfold f64Step at ha
  rcases Nat.lt_or_ge v.log2 52 with hl | hl
  · rw [show v.log2 - 52 = 0 by omega] at ha
    have : 2 ^ (v.log2 + 1) ≤ 2 ^ 53 := Nat.pow_le_pow_right (by decide) (by omega)
    omega
  · refine Nat.lt_of_mul_lt_mul_left (a := 2 ^ (v.log2 - 52)) ?_
    rw [← ha, ← Nat.pow_add, show v.log2 - 52 + 53 = v.log2 + 1 by omega]
    exact h2

theorem isFloat_iff {v : Nat} : IsFloat v ↔ f64Step v ∣ v := ⟨step_dvd_of_isFloat, isFloat_of_step_dvd⟩

theorem isFloat_mul_pow {v : Nat} (h : IsFloat v) (e : Nat) : IsFloat (v * 2 ^ e) := by
  obtain ⟨m, e', hm, rfl⟩ := h
  exact ⟨m, e' + e, hm, by rw [Nat.pow_add, Nat.mul_assoc]⟩

/-- Up to 2 ^ 53 all integers are floats. -/
theorem isFloat_small {m : Nat} (h : m ≤ 2 ^ 53) : IsFloat m := by
  rcases Nat.lt_or_ge m (2 ^ 53) with h | h
  · exact ⟨m, 0, h, by simp⟩
  · exact ⟨1, 53, by decide, by omega⟩

/-- What is rounded is a float. -/
theorem isFloat_round (p q : Nat) : IsFloat (f64Round p q) := by
  unfold f64Round
  refine isFloat_mul_pow (isFloat_small ?_) _
  have h := (roundEven_bounds p (q * f64Step (p / q))).2
  refine Nat.le_trans h ?_
  rw [← Nat.div_div_eq_div_mul]
  have h2 := Nat.lt_log2_self (n := p / q)
  have : p / q / f64Step (p / q) < 2 ^ 53 := by
    rw [Nat.div_lt_iff_lt_mul (f64Step_pos _)]
    refine Nat.lt_of_lt_of_le h2 ?_
    unfold f64Step
    rw [← Nat.pow_add]
    exact Nat.pow_le_pow_right (by decide) (by omega)
  omega

theorem isFloat_decimal (d : Nat) (k : Int) : IsFloat (f64OfDecimal d k) := isFloat_round _ _

theorem f64One_eq : f64One = 2 ^ 1074 := rfl

theorem f64Limit_eq : f64Limit = 2 ^ 1024 * 2 ^ 1074 := Nat.pow_add 2 1024 1074

attribute [local irreducible] f64One f64Limit

theorem f64One_pos : 0 < f64One := by rw [f64One_eq]; exact Nat.two_pow_pos _

theorem f64OfDecimal_shift (d n : Nat) (k : Int) : f64OfDecimal (d * 10 ^ n) k = f64OfDecimal d (k + n) := by
  unfold f64OfDecimal
  refine f64Round_congr (Nat.pow_pos (by decide)) (Nat.pow_pos (by decide)) ?_
  have e : n + k.toNat + (-(k + (n : Int))).toNat = (k + (n : Int)).toNat + (-k).toNat := by omega
  calc d * 10 ^ n * 10 ^ k.toNat * f64One * 10 ^ (-(k + (n : Int))).toNat
      = d * f64One * 10 ^ (n + k.toNat + (-(k + (n : Int))).toNat) := by
        rw [Nat.pow_add, Nat.pow_add]; simp only [Nat.mul_assoc, Nat.mul_comm, Nat.mul_left_comm]
    _ = d * 10 ^ (k + (n : Int)).toNat * f64One * 10 ^ (-k).toNat := by
        rw [e, Nat.pow_add]; simp only [Nat.mul_assoc, Nat.mul_comm, Nat.mul_left_comm]

theorem f64OfDecimal_zero (k : Int) : f64OfDecimal 0 k = 0 := by
  unfold f64OfDecimal f64Round roundEven
  have : 0 < 10 ^ (-k).toNat * f64Step 0 := Nat.mul_pos (Nat.pow_pos (by decide)) (f64Step_pos 0)
  simp only [Nat.zero_mul, Nat.zero_div, Nat.zero_mod, Nat.mul_zero, this, true_or, if_true]

/-! ## The shortest decimal -/

theorem decimalAt_reads {v : Nat} {k k' : Int} {d : Nat} (h : decimalAt v k = some (d, k')) : f64OfDecimal d k' = v := by
  unfold decimalAt at h
  cases hf : (decimalsNear v k).find? fun d => f64OfDecimal d k = v with
  | none => rw [hf] at h; cases h
  | some d' =>
    rw [hf] at h
    cases h
    simpa using List.find?_some hf

theorem exact_reads {v : Nat} (h : IsFloat v) (n : Nat) (hn : f64One = 2 ^ n) : f64OfDecimal (v * 5 ^ n) (-(n : Int)) = v := by
  unfold f64OfDecimal
  rw [show (-(n : Int)).toNat = 0 by omega, show (-(-(n : Int))).toNat = n by omega, Nat.pow_zero, Nat.mul_one, hn,
    Nat.mul_assoc, ← Nat.mul_pow]
  exact f64Round_exact (Nat.pow_pos (by decide)) (isFloat_iff.1 h)

theorem shortest_reads {v : Nat} (h : IsFloat v) : f64OfDecimal (shortest v).1 (shortest v).2 = v := by
  unfold shortest
  cases hf : (List.range 24).findSome? fun (i : Nat) => decimalAt v (exponentAbove v - (i : Int)) with
  | none => exact exact_reads h 1074 f64One_eq
  | some r =>
    obtain ⟨i, _, hi⟩ := List.exists_of_findSome?_eq_some hf
    exact decimalAt_reads (d := r.1) (k' := r.2) hi


/-! ## Texts of decimals -/

/-- All characters are digits. -/
def AllDigits (s : Str) : Prop := ∀ c ∈ s, c.isDigit = true

theorem allDigits_toDigits (n : Nat) : AllDigits (Nat.toDigits 10 n) := fun _ h => isDigit_toDigits h

theorem toDigits_ne_nil (n : Nat) : Nat.toDigits 10 n ≠ [] := by
  intro h
  have := parseNat_toDigits n
  rw [h] at this
  cases this

theorem AllDigits.append {a b : Str} (ha : AllDigits a) (hb : AllDigits b) : AllDigits (a ++ b) := by
  intro c h
  rcases List.mem_append.1 h with h | h
  · exact ha c h
  · exact hb c h

theorem allDigits_zeros (n : Nat) : AllDigits (List.replicate n '0') := by
  intro c h
  rw [(List.mem_replicate.1 h).2]
  decide

theorem AllDigits.take {a : Str} (ha : AllDigits a) (n : Nat) : AllDigits (a.take n) := fun c h => ha c (List.mem_of_mem_take h)
theorem AllDigits.drop {a : Str} (ha : AllDigits a) (n : Nat) : AllDigits (a.drop n) := fun c h => ha c (List.mem_of_mem_drop h)

/-- Digits with or without a point, and an exponent. -/
theorem pointDigits_none {ex : Str} (hdot : ex.head? ≠ some '.') : pointDigits ex = ([], ex) := by
  unfold pointDigits
  split
  · exact absurd rfl hdot
  · rfl

theorem floatDecimal_text {ds fs ex : Str} {i : Int} (hd : AllDigits ds) (hf : AllDigits fs) (h0 : ds ≠ []) (hx : NoDigit ex)
    (hdot : ex.head? ≠ some '.') (he : floatExponent ex = some i) :
    floatDecimal (ds ++ (if fs = [] then [] else '.' :: fs) ++ ex) = some (Nat.ofDigitChars 10 (ds ++ fs) 0, i - fs.length) := by
  unfold floatDecimal
  by_cases h : fs = []
  · subst h
    simp only [if_true, List.append_nil, scanDigits_append hd hx, pointDigits_none hdot, h0, he, false_and, if_false, Option.map_some,
      List.length_nil]
  · rw [if_neg h, List.append_assoc, scanDigits_append hd (by intro c hc; cases hc; decide)]
    simp only [List.cons_append, pointDigits, scanDigits_append hf hx, h0, false_and, if_false, he, Option.map_some]

theorem floatExponent_nil : floatExponent [] = some 0 := rfl

theorem floatExponent_e {c : Char} (hc : c = 'e' ∨ c = 'E') {s : Str} {b : Bool} {ds : Str} (hs : splitSign s = (b, ds)) {n : Nat}
    (hn : parseNat ds = some n) : floatExponent (c :: s) = some (if b then -(n : Int) else n) := by
  unfold floatExponent
  simp only [hc, if_true, hs, hn, Option.map_some]

theorem splitSign_digits {ds : Str} (h : AllDigits ds) : splitSign ds = (false, ds) := by
  unfold splitSign
  split
  · exact absurd (h '-' (by simp)) (by decide)
  · exact absurd (h '+' (by simp)) (by decide)
  · rfl

theorem floatExponent_text (e : Int) : floatExponent (exponentText e) = some e := by
  unfold exponentText
  rw [floatExponent_e (b := e < 0) (ds := Nat.toDigits 10 e.natAbs) (.inl rfl) ?_ (parseNat_toDigits _)]
  · simp only [decide_eq_true_eq]
    split <;> (congr 1; omega)
  · unfold signText
    by_cases h : e < 0
    · simp [h, splitSign]
    · simp only [h, decide_false]
      exact splitSign_digits (allDigits_toDigits _)

theorem noDigit_exponent (e : Int) : NoDigit (exponentText e) := by
  intro c hc
  cases hc
  decide

theorem ofDigits_take_drop (ds : Str) (n : Nat) : Nat.ofDigitChars 10 (ds.take n ++ ds.drop n) 0 = Nat.ofDigitChars 10 ds 0 := by
  rw [List.take_append_drop]

theorem ofDigits_zeros_front (n : Nat) (ds : Str) : Nat.ofDigitChars 10 (List.replicate n '0' ++ ds) 0 = Nat.ofDigitChars 10 ds 0 := by
  rw [Nat.ofDigitChars_append, Nat.ofDigitChars_replicate_zero, Nat.mul_zero]

theorem ofDigits_zeros_back (n : Nat) (ds : Str) :
    Nat.ofDigitChars 10 (ds ++ List.replicate n '0') 0 = Nat.ofDigitChars 10 ds 0 * 10 ^ n := by
  rw [Nat.ofDigitChars_append, Nat.ofDigitChars_replicate_zero, Nat.mul_comm]

theorem end_nil : NoDigit [] ∧ ([] : Str).head? ≠ some '.' := ⟨(fun _ h => nomatch h), nofun⟩

theorem end_exponent (e : Int) : NoDigit (exponentText e) ∧ (exponentText e).head? ≠ some '.' :=
  ⟨noDigit_exponent e, by unfold exponentText; simp⟩

/-- How the texts of decimals are made: digits, more digits after a point, and an exponent. -/
structure Written (x : Str) (v : Nat) : Prop where
  parts : ∃ ds fs ex i, AllDigits ds ∧ ds ≠ [] ∧ AllDigits fs ∧ floatExponent ex = some i ∧ (NoDigit ex ∧ ex.head? ≠ some '.') ∧
    x = ds ++ (if fs = [] then [] else '.' :: fs) ++ ex ∧ f64OfDecimal (Nat.ofDigitChars 10 (ds ++ fs) 0) (i - fs.length) = v

theorem Written.read {x : Str} {v : Nat} (h : Written x v) : ∃ d k, floatDecimal x = some (d, k) ∧ f64OfDecimal d k = v := by
  obtain ⟨ds, fs, ex, i, h1, h2, h3, h4, h5, rfl, h7⟩ := h.parts
  exact ⟨_, _, floatDecimal_text h1 h3 h2 h5.1 h5.2 h4, h7⟩

/-- The same, with the number that is written. -/
structure Stands (x : Str) (d : Nat) (k : Int) : Prop where
  parts : ∃ ds fs ex i, AllDigits ds ∧ ds ≠ [] ∧ AllDigits fs ∧ floatExponent ex = some i ∧ (NoDigit ex ∧ ex.head? ≠ some '.') ∧
    x = ds ++ (if fs = [] then [] else '.' :: fs) ++ ex ∧ ∃ j : Nat, Nat.ofDigitChars 10 (ds ++ fs) 0 = d * 10 ^ j ∧ k = i - fs.length + (j : Int)

theorem Stands.written {x : Str} {d : Nat} {k : Int} (h : Stands x d k) : Written x (f64OfDecimal d k) := by
  obtain ⟨ds, fs, ex, i, h1, h2, h3, h4, h5, h6, j, h7, h8⟩ := h.parts
  exact ⟨ds, fs, ex, i, h1, h2, h3, h4, h5, h6, by rw [h7, f64OfDecimal_shift, ← h8]⟩

theorem stands_plain (d : Nat) (k : Int) : Stands (plainDecimal d k) d k := by
  constructor
  unfold plainDecimal
  by_cases hk : 0 ≤ k
  · refine ⟨Nat.toDigits 10 d ++ List.replicate k.toNat '0', [], [], 0, (allDigits_toDigits d).append (allDigits_zeros _), ?_,
      (fun _ h => nomatch h), rfl, end_nil, ?_, ?_⟩
    · simp [toDigits_ne_nil]
    · simp [hk]
    · refine ⟨k.toNat, by rw [List.append_nil, ofDigits_zeros_back, Nat.ofDigitChars_ten_toDigits], ?_⟩
      simp; omega
  · simp only [if_neg hk]
    generalize hz : List.replicate ((-k).toNat + 1 - (Nat.toDigits 10 d).length) '0' ++ Nat.toDigits 10 d = z
    have hl : (-k).toNat + 1 ≤ z.length := by
      rw [← hz, List.length_append, List.length_replicate]; omega
    have ha : AllDigits z := by rw [← hz]; exact (allDigits_zeros _).append (allDigits_toDigits d)
    have hdl : (z.drop (z.length - (-k).toNat)).length = (-k).toNat := by rw [List.length_drop]; omega
    refine ⟨z.take (z.length - (-k).toNat), z.drop (z.length - (-k).toNat), [], 0, ha.take _, ?_, ha.drop _, rfl, end_nil, ?_, ?_⟩
    · intro h
      have := congrArg List.length h
      rw [List.length_take] at this
      simp only [List.length_nil] at this
      omega
    · rw [if_neg, List.append_nil]
      intro h
      rw [h] at hdl
      simp only [List.length_nil] at hdl
      omega
    · refine ⟨0, by rw [ofDigits_take_drop, ← hz, ofDigits_zeros_front, Nat.ofDigitChars_ten_toDigits]; omega, ?_⟩
      omega

theorem written_plain (d : Nat) (k : Int) : Written (plainDecimal d k) (f64OfDecimal d k) := (stands_plain d k).written

theorem stands_ryu (d : Nat) (k : Int) : Stands (ryuDecimal d k) d k := by
  constructor
  have hne := toDigits_ne_nil d
  have hlen : 0 < (Nat.toDigits 10 d).length := by
    cases h : Nat.toDigits 10 d with
    | nil => exact absurd h hne
    | cons => simp
  have ha := allDigits_toDigits d
  have hval : Nat.ofDigitChars 10 (Nat.toDigits 10 d) 0 = d := Nat.ofDigitChars_ten_toDigits
  unfold ryuDecimal
  generalize Nat.toDigits 10 d = ds at *
  subst hval
  simp only
  split
  · rename_i h
    refine ⟨ds ++ List.replicate k.toNat '0', c!"0", [], 0, ha.append (allDigits_zeros _), by simp [hne], by unfold AllDigits; decide, rfl, end_nil,
      by simp, k.toNat + 1, ?_, ?_⟩
    · rw [show ds ++ List.replicate k.toNat '0' ++ c!"0" = ds ++ List.replicate (k.toNat + 1) '0' by
        rw [List.replicate_succ', List.append_assoc], ofDigits_zeros_back]
    · simp; omega
  split
  · rename_i h1 h2
    refine ⟨ds.take (↑ds.length + k).toNat, ds.drop (↑ds.length + k).toNat, [], 0, ha.take _, ?_, ha.drop _, rfl, end_nil, ?_, ?_⟩
    · intro h
      have := congrArg List.length h
      rw [List.length_take] at this
      simp only [List.length_nil] at this
      omega
    · rw [if_neg, List.append_nil]
      intro h
      have := congrArg List.length h
      rw [List.length_drop] at this
      simp only [List.length_nil] at this
      omega
    · refine ⟨0, by rw [ofDigits_take_drop]; omega, ?_⟩
      rw [List.length_drop]
      omega
  split
  · rename_i h1 h2 h3
    refine ⟨c!"0", List.replicate (-(↑ds.length + k)).toNat '0' ++ ds, [], 0, by unfold AllDigits; decide, by decide,
      (allDigits_zeros _).append ha, rfl, end_nil, ?_, ?_⟩
    · rw [if_neg (by simp [hne])]; simp
    · refine ⟨0, ?_, ?_⟩
      · rw [show c!"0" ++ (List.replicate (-(↑ds.length + k)).toNat '0' ++ ds) = List.replicate ((-(↑ds.length + k)).toNat + 1) '0' ++ ds by
          simp [List.replicate_succ], ofDigits_zeros_front]
        omega
      · rw [List.length_append, List.length_replicate]
        omega
  split
  · rename_i h
    refine ⟨ds, [], exponentText (↑ds.length + k - 1), _, ha, hne, (fun _ h => nomatch h), floatExponent_text _, end_exponent _, by simp, 0, ?_, ?_⟩
    · rw [List.append_nil]; omega
    · simp; omega
  · rename_i h
    refine ⟨ds.take 1, ds.drop 1, exponentText (↑ds.length + k - 1), _, ha.take _, ?_, ha.drop _, floatExponent_text _, end_exponent _, ?_, ?_⟩
    · intro h
      have := congrArg List.length h
      rw [List.length_take] at this
      simp only [List.length_nil] at this
      omega
    · rw [if_neg]
      intro h
      have := congrArg List.length h
      rw [List.length_drop] at this
      simp only [List.length_nil] at this
      omega
    · refine ⟨0, by rw [ofDigits_take_drop]; omega, ?_⟩
      rw [List.length_drop]
      omega

/-- What is written is no word, and has no sign. -/
theorem written_ryu (d : Nat) (k : Int) : Written (ryuDecimal d k) (f64OfDecimal d k) := (stands_ryu d k).written

theorem Written.head {x : Str} {v : Nat} (h : Written x v) : ∃ c r, x = c :: r ∧ c.isDigit = true := by
  obtain ⟨ds, fs, ex, i, h1, h2, _, _, _, rfl, _⟩ := h.parts
  cases ds with
  | nil => exact absurd rfl h2
  | cons c r => exact ⟨c, _, by simp; rfl, h1 c (by simp)⟩

theorem splitSign_signText (n : Bool) {x : Str} (hx : ∃ c r, x = c :: r ∧ c.isDigit = true) : splitSign (signText n ++ x) = (n, x) := by
  obtain ⟨c, r, rfl, hc⟩ := hx
  cases n with
  | true => rfl
  | false =>
    show splitSign (c :: r) = _
    unfold splitSign
    split
    · rename_i h; cases h; exact absurd hc (by decide)
    · rename_i h; cases h; exact absurd hc (by decide)
    · rfl

theorem toLower_digit {c : Char} (h : c.isDigit = true) : c.toLower = c := by
  unfold Char.toLower
  simp only [Char.isDigit, ge_iff_le, Bool.and_eq_true, decide_eq_true_eq] at h
  rw [dif_neg]
  have h2 : c.val ≤ 57 := h.2
  rintro ⟨h1, _⟩
  have : c.val.toNat ≤ 57 := h2
  have : 65 ≤ c.val.toNat := h1
  omega

theorem Written.parse {x : Str} {v : Nat} (h : Written x v) (n : Bool) : F64.parse (signText n ++ x) = some (F64.ofRounded n v) := by
  obtain ⟨d, k, h1, h2⟩ := h.read
  have hh := h.head
  unfold F64.parse
  rw [splitSign_signText n hh]
  obtain ⟨c, r, rfl, hc⟩ := hh
  have hw : ∀ w : Str, (∀ a ∈ w.head?, a.isDigit = false) → (c :: r).map Char.toLower ≠ w := by
    intro w hw he
    rw [← he, List.map_cons, toLower_digit hc] at hw
    rw [hw c (by simp)] at hc
    cases hc
  have hn : ¬((c :: r).map Char.toLower = c!"inf" ∨ (c :: r).map Char.toLower = c!"infinity") := by
    rintro (h | h)
    · exact hw _ (by simp) h
    · exact hw _ (by simp) h
  have hn2 : (c :: r).map Char.toLower ≠ c!"nan" := hw _ (by simp)
  simp only [hn, hn2, if_false, h1, Option.map_some, h2]

/-! ## Reading what is printed -/

theorem inRange_finite {n : Bool} {v : Nat} : InRange (.finite n v) ↔ IsFloat v ∧ v < f64Limit := by
  rw [f64Limit_eq]
  unfold InRange
  exact Iff.rfl

theorem inRange_ofRounded (n : Bool) (d : Nat) (k : Int) : InRange (F64.ofRounded n (f64OfDecimal d k)) := by
  unfold F64.ofRounded
  split
  · exact inRange_finite.2 ⟨isFloat_decimal _ _, by assumption⟩
  · trivial

theorem written_zero : Written c!"0" 0 := ⟨c!"0", [], [], 0, by unfold AllDigits; decide, by decide, (fun _ h => nomatch h), rfl, end_nil, rfl, by
  exact f64OfDecimal_zero _⟩

theorem written_zero_ryu : Written c!"0.0" 0 := ⟨c!"0", c!"0", [], 0, by unfold AllDigits; decide, by decide, by unfold AllDigits; decide, rfl, end_nil, rfl, by
  exact f64OfDecimal_zero _⟩

theorem written_show {v : Nat} (h : IsFloat v) : Written (if v = 0 then c!"0" else plainDecimal (shortest v).1 (shortest v).2) v := by
  split
  · rename_i h0; subst h0; exact written_zero
  · have := written_plain (shortest v).1 (shortest v).2
    rw [shortest_reads h] at this
    exact this

theorem written_ryu_show {v : Nat} (h : IsFloat v) : Written (if v = 0 then c!"0.0" else ryuDecimal (shortest v).1 (shortest v).2) v := by
  split
  · rename_i h0; subst h0; exact written_zero_ryu
  · have := written_ryu (shortest v).1 (shortest v).2
    rw [shortest_reads h] at this
    exact this

theorem parse_show {f : F64} (h : InRange f) : F64.parse f.show = some f := by
  cases f with
  | nan => rfl
  | infinite n => cases n <;> rfl
  | finite n v =>
    obtain ⟨h1, h2⟩ := inRange_finite.1 h
    unfold F64.show
    rw [(written_show h1).parse]
    unfold F64.ofRounded
    rw [if_pos h2]

theorem parse_ryu {n : Bool} {v : Nat} (h : InRange (.finite n v)) : F64.parse (F64.ryu n v) = some (.finite n v) := by
  obtain ⟨h1, h2⟩ := inRange_finite.1 h
  unfold F64.ryu
  rw [(written_ryu_show h1).parse]
  unfold F64.ofRounded
  rw [if_pos h2]

theorem inRange_parse {s : Str} {f : F64} (h : F64.parse s = some f) : InRange f := by
  unfold F64.parse at h
  simp only at h
  split at h
  · cases h; trivial
  split at h
  · cases h; trivial
  · cases hd : floatDecimal (splitSign s).2 with
    | none => rw [hd] at h; cases h
    | some d =>
      rw [hd] at h
      cases h
      exact inRange_ofRounded _ _ _

/-- The floats of Rust. -/
def f64Floats : FloatOps where
  reprint s := (F64.parse s).map F64.show
  reprint_idem := by
    intro s t h
    cases hf : F64.parse s with
    | none => rw [hf] at h; cases h
    | some f =>
      rw [hf] at h
      cases h
      rw [parse_show (inRange_parse hf)]
      rfl

/-! ## Reading by `serde_json` -/

theorem takeDigits_append {ds r : Str} (hd : AllDigits ds) (hr : NoDigit r) (sig : Nat) (hfit : Nat.ofDigitChars 10 ds sig < 2 ^ 64) :
    takeDigits sig (ds ++ r) = (Nat.ofDigitChars 10 ds sig, ds.length, r) := by
  induction ds generalizing sig with
  | nil =>
    cases r with
    | nil => rfl
    | cons c r =>
      have := hr c (by simp)
      simp [takeDigits, this]
  | cons c ds ih =>
    rw [Nat.ofDigitChars_cons] at hfit ⊢
    have hc := hd c (by simp)
    have hle : 10 * sig + (c.toNat - '0'.toNat) ≤ Nat.ofDigitChars 10 ds (10 * sig + (c.toNat - '0'.toNat)) := by
      rw [Nat.ofDigitChars_eq_ofDigitChars_zero]
      have : 1 ≤ 10 ^ ds.length := Nat.pow_pos (by decide)
      have := Nat.mul_le_mul_right (10 * sig + (c.toNat - '0'.toNat)) this
      omega
    have e : '0'.toNat = 48 := rfl
    have hf : fitsU64 sig c = true := by
      unfold fitsU64
      rw [decide_eq_true_eq]
      rw [e] at hle hfit
      omega
    rw [List.cons_append, takeDigits, if_pos ⟨hc, hf⟩, Nat.mul_comm sig 10, ← e,
      ih (fun c h => hd c (List.mem_cons_of_mem _ h)) _ hfit]
    rfl

theorem takePoint_none {ex : Str} (hdot : ex.head? ≠ some '.') (sig : Nat) : takePoint sig ex = (sig, 0, ex) := by
  unfold takePoint
  split
  · exact absurd rfl hdot
  · rfl

theorem scanDigits_none {r : Str} (hr : NoDigit r) : scanDigits r = ([], r) := scanDigits_append (ds := []) (fun _ h => nomatch h) hr

/-- Digits that fit into the significand are all taken. -/
theorem serdeParts_text {ds fs ex : Str} {i : Int} (hd : AllDigits ds) (hf : AllDigits fs) (hx : NoDigit ex)
    (hdot : ex.head? ≠ some '.') (he : floatExponent ex = some i) (hfit : Nat.ofDigitChars 10 (ds ++ fs) 0 < 2 ^ 64) :
    serdeParts (ds ++ (if fs = [] then [] else '.' :: fs) ++ ex) = some (Nat.ofDigitChars 10 (ds ++ fs) 0, i - fs.length) := by
  have hle : Nat.ofDigitChars 10 ds 0 ≤ Nat.ofDigitChars 10 (ds ++ fs) 0 := by
    rw [Nat.ofDigitChars_append, Nat.ofDigitChars_eq_ofDigitChars_zero (l := fs)]
    have : 1 ≤ 10 ^ fs.length := Nat.pow_pos (by decide)
    have := Nat.mul_le_mul_right (Nat.ofDigitChars 10 ds 0) this
    omega
  unfold serdeParts
  by_cases h : fs = []
  · subst h
    rw [List.append_nil] at hfit ⊢
    simp only [if_true, List.append_nil, takeDigits_append hd hx 0 hfit, scanDigits_none hx, takePoint_none hdot, he, Option.map_some]
    simp
  · have hx' : NoDigit (('.' :: fs) ++ ex) := by intro c hc; cases hc; decide
    rw [if_neg h, List.append_assoc, takeDigits_append hd hx' 0 (by omega)]
    rw [Nat.ofDigitChars_append] at hfit
    simp only [scanDigits_none hx']
    simp only [List.cons_append, takePoint, takeDigits_append hf hx _ hfit, scanDigits_none hx, he, Option.map_some,
      Nat.ofDigitChars_append, List.length_nil]
    congr 2
    omega

theorem isFloat_one_mul {n : Nat} (h : IsFloat n) : IsFloat (n * f64One) := by
  rw [f64One_eq]
  exact isFloat_mul_pow h 1074

theorem isFloat_pow10 {n : Nat} (h : n ≤ 22) : IsFloat (10 ^ n) := by
  refine ⟨5 ^ n, n, ?_, by rw [← Nat.mul_pow]⟩
  exact Nat.lt_of_le_of_lt (Nat.pow_le_pow_right (by decide) h) (by decide)

theorem f64Round_one {n : Nat} (h : IsFloat n) : f64Round (n * f64One) 1 = n * f64One := by
  have := f64Round_exact (v := n * f64One) (q := 1) (by decide) (isFloat_iff.1 (isFloat_one_mul h))
  rwa [Nat.mul_one] at this

/-- Products and quotients of floats are exact but for one rounding. -/
theorem serdeScale_exact {n fuel : Nat} {e : Int} (hn : n ≤ 2 ^ 53) (he : e.natAbs ≤ 22) (hr : f64OfDecimal n e < f64Limit) :
    serdeScale (fuel + 1) (f64Round (n * f64One) 1) e = some (f64OfDecimal n e) := by
  rw [f64Round_one (isFloat_small hn)]
  unfold serdeScale
  rw [if_pos (by omega)]
  unfold f64Pow10
  by_cases h : 0 ≤ e
  · rw [if_pos h, f64Round_one (isFloat_pow10 (n := e.toNat) (by omega))]
    have : f64Round (n * f64One * (10 ^ e.toNat * f64One)) f64One = f64OfDecimal n e := by
      unfold f64OfDecimal
      refine f64Round_congr f64One_pos (Nat.pow_pos (by decide)) ?_
      rw [show (-e).toNat = 0 by omega, Nat.pow_zero, Nat.mul_one]
      simp only [Nat.mul_assoc, Nat.mul_comm, Nat.mul_left_comm]
    simp only [this, hr, if_true]
  · rw [if_neg h, f64Round_one (isFloat_pow10 (n := (-e).toNat) (by omega))]
    congr 1
    unfold f64OfDecimal
    refine f64Round_congr (Nat.mul_pos (Nat.pow_pos (by decide)) f64One_pos) (Nat.pow_pos (by decide)) ?_
    rw [show e.toNat = 0 by omega, Nat.pow_zero, Nat.mul_one]
    simp only [Nat.mul_assoc, Nat.mul_comm, Nat.mul_left_comm]

/-! ## The nearest float -/

theorem f64Step_le (n : Nat) : f64Step n ≤ n + 1 := by
  unfold f64Step
  by_cases h : n = 0
  · subst h; simp
  · have := Nat.log2_self_le h
    have : 2 ^ (n.log2 - 52) ≤ 2 ^ n.log2 := Nat.pow_le_pow_right (by decide) (by omega)
    omega

/-- A float above `n` is not closer to it than the step. -/
theorem next_float {n w : Nat} (hw : IsFloat w) (h : n < w) : (n / f64Step n + 1) * f64Step n ≤ w := by
  obtain ⟨m, e, hm, rfl⟩ := hw
  have hstep : f64Step n ∣ m * 2 ^ e := by
    rcases Nat.lt_or_ge e (n.log2 - 52) with he | he
    · exfalso
      have hn : n ≠ 0 := by intro h; subst h; simp at he
      have h1 := Nat.log2_self_le hn
      have h2 : m * 2 ^ e < 2 ^ 53 * 2 ^ e := Nat.mul_lt_mul_of_pos_right hm (Nat.two_pow_pos e)
      rw [← Nat.pow_add] at h2
      have h3 : 2 ^ (53 + e) ≤ 2 ^ n.log2 := Nat.pow_le_pow_right (by decide) (by omega)
      omega
    · exact Nat.dvd_trans (Nat.pow_dvd_pow 2 he) (Nat.dvd_mul_left _ _)
  obtain ⟨a, ha⟩ := hstep
  have hlt : n / f64Step n < a := by
    rw [Nat.div_lt_iff_lt_mul (f64Step_pos n), Nat.mul_comm, ← ha]
    exact h
  rw [ha, Nat.mul_comm (f64Step n)]
  exact Nat.mul_le_mul_right _ hlt

/-- A float up to `n` is not closer to it than the multiple of the step below. -/
theorem prev_float {n w : Nat} (hw : IsFloat w) (h : w ≤ n) : w ≤ n / f64Step n * f64Step n := by
  rcases Nat.lt_or_ge w (2 ^ n.log2) with hlt | hge
  · by_cases hn : n = 0
    · subst hn; omega
    have h1 := Nat.log2_self_le hn
    have : f64Step n ∣ 2 ^ n.log2 := Nat.pow_dvd_pow 2 (by omega)
    obtain ⟨a, ha⟩ := this
    have : a ≤ n / f64Step n := by
      rw [Nat.le_div_iff_mul_le (f64Step_pos n), Nat.mul_comm, ← ha]
      exact h1
    have := Nat.mul_le_mul_right (f64Step n) this
    rw [Nat.mul_comm a, ← ha] at this
    omega
  · have hd : f64Step n ∣ w := by
      have hw0 : w ≠ 0 := by have := Nat.two_pow_pos n.log2; omega
      have : w.log2 = n.log2 := by
        rw [Nat.log2_eq_iff hw0]
        exact ⟨hge, Nat.lt_of_le_of_lt h Nat.lt_log2_self⟩
      have hs := isFloat_iff.1 hw
      unfold f64Step at hs ⊢
      rwa [this] at hs
    obtain ⟨a, rfl⟩ := hd
    have : a ≤ n / f64Step n := by
      rw [Nat.le_div_iff_mul_le (f64Step_pos n), Nat.mul_comm]
      exact h
    rw [Nat.mul_comm]
    exact Nat.mul_le_mul_right _ this

theorem round_nearest {p q w : Nat} (hq : 0 < q) (hw : IsFloat w) :
    (f64Round p q * q - p) + (p - f64Round p q * q) ≤ (w * q - p) + (p - w * q) := by
  have hsp := f64Step_pos (p / q)
  have hlow : w ≤ p / q → w * q ≤ p / q / f64Step (p / q) * f64Step (p / q) * q := fun h =>
    Nat.mul_le_mul_right q (prev_float hw h)
  have hhigh : p / q < w → (p / q / f64Step (p / q) + 1) * f64Step (p / q) * q ≤ w * q := fun h =>
    Nat.mul_le_mul_right q (next_float hw h)
  unfold f64Round roundEven
  rw [Nat.div_div_eq_div_mul] at hlow hhigh
  generalize f64Step (p / q) = u at *
  have hdm := Nat.div_add_mod p (q * u)
  have hml := Nat.mod_lt p (Nat.mul_pos hq hsp)
  generalize p / (q * u) = a at *
  generalize p % (q * u) = r at *
  have e1 : a * u * q = q * u * a := by simp only [Nat.mul_comm, Nat.mul_left_comm]
  have e2 : (a + 1) * u * q = q * u * a + q * u := by
    rw [Nat.add_mul, Nat.add_mul, e1, Nat.one_mul, Nat.mul_comm u q]
  rw [e1] at hlow
  rw [e2] at hhigh
  rcases Nat.lt_or_ge (p / q) w with h | h
  · have := hhigh h
    split
    · rw [e1]; omega
    · rw [e2]; omega
  · have := hlow h
    split
    · rw [e1]; omega
    · rw [e2]; omega

/-! ## Numbers in JSON -/

theorem f64Round_le (p q : Nat) : f64Round p q ≤ 2 * (p / q) + 1 := by
  unfold f64Round
  have h1 := (roundEven_bounds p (q * f64Step (p / q))).2
  have h2 := f64Step_le (p / q)
  rw [← Nat.div_div_eq_div_mul] at h1
  have h3 := Nat.mul_le_mul_right (f64Step (p / q)) h1
  rw [Nat.add_mul, Nat.one_mul] at h3
  have h4 := Nat.div_mul_le_self (p / q) (f64Step (p / q))
  omega

theorem short_in_range {n : Nat} {e : Int} (hn : n ≤ 2 ^ 53) (he : e.natAbs ≤ 22) : f64OfDecimal n e < f64Limit := by
  unfold f64OfDecimal
  refine Nat.lt_of_le_of_lt (f64Round_le _ _) ?_
  have h1 : n * 10 ^ e.toNat * f64One / 10 ^ (-e).toNat ≤ 2 ^ 53 * 10 ^ 22 * f64One := by
    refine Nat.le_trans (Nat.div_le_self _ _) ?_
    exact Nat.mul_le_mul_right _ (Nat.mul_le_mul hn (Nat.pow_le_pow_right (by decide) (by omega)))
  have h2 : 2 * (2 ^ 53 * 10 ^ 22 * f64One) + 1 < f64Limit := by rw [f64One_eq, f64Limit_eq]; decide +kernel
  omega

theorem round_le_float {p q w : Nat} (hq : 0 < q) (hw : IsFloat w) (h : p ≤ w * q) : f64Round p q ≤ w := by
  rcases Nat.lt_or_ge w (f64Round p q) with hlt | hge
  · have h1 := round_nearest (p := p) hq hw
    have h2 : w * q < f64Round p q * q := Nat.mul_lt_mul_of_pos_right hlt hq
    omega
  · exact hge

theorem float_le_round {p q w : Nat} (hq : 0 < q) (hw : IsFloat w) (h : w * q ≤ p) : w ≤ f64Round p q := by
  rcases Nat.lt_or_ge (f64Round p q) w with hlt | hge
  · have h1 := round_nearest (p := p) hq hw
    have h2 : f64Round p q * q < w * q := Nat.mul_lt_mul_of_pos_right hlt hq
    omega
  · exact hge

theorem one_le_pow10 (n : Nat) : f64One ≤ f64Pow10 n := by
  refine float_le_round (by decide) ?_ ?_
  · have := isFloat_one_mul (n := 1) ⟨1, 0, by decide, rfl⟩
    rwa [Nat.one_mul] at this
  · rw [Nat.mul_one]
    have : 1 ≤ 10 ^ n := Nat.pow_pos (by decide)
    have := Nat.mul_le_mul_right f64One this
    rwa [Nat.one_mul] at this

theorem quotient_le {f : Nat} (hf : IsFloat f) (n : Nat) : f64Round (f * f64One) (f64Pow10 n) ≤ f :=
  round_le_float (Nat.lt_of_lt_of_le f64One_pos (one_le_pow10 n)) hf (Nat.mul_le_mul_left f (one_le_pow10 n))

theorem isFloat_serdeScale {fuel f g : Nat} {e : Int} (hf : IsFloat f) (hl : f < f64Limit) (h : serdeScale fuel f e = some g) :
    IsFloat g ∧ g < f64Limit := by
  induction fuel generalizing f e with
  | zero => cases h
  | succ fuel ih =>
    unfold serdeScale at h
    split at h
    · split at h
      · simp only at h
        split at h
        · cases h; exact ⟨isFloat_round _ _, by assumption⟩
        · cases h
      · cases h
        exact ⟨isFloat_round _ _, Nat.lt_of_le_of_lt (quotient_le hf _) hl⟩
    split at h
    · cases h; exact ⟨hf, hl⟩
    split at h
    · cases h
    · exact ih (isFloat_round _ _) (Nat.lt_of_le_of_lt (quotient_le hf _) hl) h

theorem takeDigits_fits (s : Str) {sig : Nat} (h : sig < 2 ^ 64) : (takeDigits sig s).1 < 2 ^ 64 := by
  induction s generalizing sig with
  | nil => exact h
  | cons c r ih =>
    unfold takeDigits
    split
    · rename_i hc
      exact ih (by have := hc.2; unfold fitsU64 at this; exact of_decide_eq_true this)
    · exact h

theorem serdeParts_fits {s : Str} {p : Nat × Int} (h : serdeParts s = some p) : p.1 < 2 ^ 64 := by
  unfold serdeParts at h
  obtain ⟨e, _, rfl⟩ := Option.map_eq_some_iff.1 h
  simp only
  unfold takePoint
  split
  · exact takeDigits_fits _ (takeDigits_fits _ (by decide))
  · exact takeDigits_fits _ (by decide)

theorem inRange_serdeRead {x : Str} {f : F64} (h : serdeRead x = some f) : ∃ n v, f = .finite n v ∧ InRange f := by
  unfold serdeRead at h
  obtain ⟨p, hp, h⟩ := Option.bind_eq_some_iff.1 h
  obtain ⟨g, hg, rfl⟩ := Option.map_eq_some_iff.1 h
  refine ⟨_, g, rfl, inRange_finite.2 (isFloat_serdeScale (isFloat_round _ _) ?_ hg)⟩
  have h1 := serdeParts_fits hp
  refine Nat.lt_of_le_of_lt (f64Round_le _ _) ?_
  rw [Nat.div_one]
  have h2 : p.1 * f64One ≤ 2 ^ 64 * f64One := Nat.mul_le_mul_right _ (by omega)
  have h3 : 2 * (2 ^ 64 * f64One) + 1 < f64Limit := by rw [f64One_eq, f64Limit_eq]; decide +kernel
  omega

theorem show_finite_ne {n : Bool} {v : Nat} (h : InRange (.finite n v)) :
    F64.show (.finite n v) ≠ c!"inf" ∧ F64.show (.finite n v) ≠ c!"-inf" ∧ F64.show (.finite n v) ≠ c!"NaN" := by
  have := parse_show h
  refine ⟨fun he => ?_, fun he => ?_, fun he => ?_⟩ <;> (rw [he] at this; cases this)

/-- What the digits of a text stand for. -/
theorem decimalText_parts {x : Str} {n : Nat} {e : Int} (h : DecimalText x n e) : ∃ ds fs ex i, AllDigits ds ∧ ds ≠ [] ∧ AllDigits fs ∧
    floatExponent ex = some i ∧ NoDigit ex ∧ ex.head? ≠ some '.' ∧ x = ds ++ (if fs = [] then [] else '.' :: fs) ++ ex ∧
    n = Nat.ofDigitChars 10 (ds ++ fs) 0 ∧ e = i - fs.length := by
  obtain ⟨ds, fs, ex, i, h1, h2, rfl, h4, rfl⟩ := h
  obtain ⟨h0, hd⟩ := digits_iff.1 h1
  obtain ⟨_, hdf⟩ := digits_iff.1 ⟨_, h2⟩
  have hx : floatExponent ex = some i ∧ NoDigit ex ∧ ex.head? ≠ some '.' := by
    rcases h4 with ⟨rfl, rfl⟩ | ⟨c, es, a, hc, ha, h4⟩
    · exact ⟨rfl, (fun c hc => nomatch hc), nofun⟩
    · obtain ⟨_, hes⟩ := digits_iff.1 ⟨_, ha⟩
      have hnd : ∀ r, NoDigit (c :: r) ∧ (c :: r).head? ≠ some '.' := by
        intro r
        rcases hc with rfl | rfl
        · exact ⟨noDigit_of_head (by decide) r, by simp⟩
        · exact ⟨noDigit_of_head (by decide) r, by simp⟩
      have hp : parseNat es = some a := Props.decimal_iff.1 ha
      rcases h4 with ⟨rfl, rfl⟩ | ⟨rfl, rfl⟩ | ⟨rfl, rfl⟩
      · exact ⟨floatExponent_e hc (splitSign_digits hes) hp, hnd _⟩
      · exact ⟨floatExponent_e hc (b := false) (ds := es) rfl hp, hnd _⟩
      · exact ⟨floatExponent_e hc (b := true) (ds := es) rfl hp, hnd _⟩
  exact ⟨ds, fs, ex, i, hd, h0, fun c h => hdf c (List.mem_append.2 (.inr h)), hx.1, hx.2.1, hx.2.2, rfl, decimal_value h2, rfl⟩

theorem serdeSign_signText (n : Bool) {x : Str} (hx : ∃ c r, x = c :: r ∧ c.isDigit = true) : serdeSign (signText n ++ x) = (n, x) := by
  obtain ⟨c, r, rfl, hc⟩ := hx
  cases n with
  | true => rfl
  | false =>
    show serdeSign (c :: r) = _
    unfold serdeSign
    split
    · rename_i h; cases h; exact absurd hc (by decide)
    · rfl

theorem serdeRead_exact {x : Str} {n : Nat} {e : Int} (h : DecimalText x n e) (hn : n ≤ 2 ^ 53) (he : e.natAbs ≤ 22) (sg : Bool) :
    serdeFloats.read (signText sg ++ x) = f64Floats.reprint (signText sg ++ x) := by
  have hr := short_in_range hn he
  obtain ⟨ds, fs, ex, i, h1, h0, h2, h3, h4, h5, rfl, rfl, rfl⟩ := decimalText_parts h
  have hw : Written (ds ++ (if fs = [] then [] else '.' :: fs) ++ ex) (f64OfDecimal (Nat.ofDigitChars 10 (ds ++ fs) 0) (i - fs.length)) :=
    ⟨ds, fs, ex, i, h1, h0, h2, h3, ⟨h4, h5⟩, rfl, rfl⟩
  show (serdeRead _).map F64.show = (F64.parse _).map F64.show
  rw [hw.parse]
  unfold serdeRead
  rw [serdeSign_signText sg hw.head, serdeParts_text h1 h2 h4 h5 h3 (by omega)]
  simp only [Option.bind_some, serdeScale_exact hn he hr, Option.map_some]
  unfold F64.ofRounded
  rw [if_pos hr]

theorem digits_of {s : Str} (h : AllDigits s) (h0 : s ≠ []) : Digits s := digits_iff.2 ⟨h0, h⟩

/-- Digits of a number that is not zero do not start with a zero. -/
theorem head_toDigits {d : Nat} (hd : d ≠ 0) : ∃ c r, Nat.toDigits 10 d = c :: r ∧ c ≠ '0' := by
  obtain ⟨h1, h2⟩ := toDigits_int d
  rcases h2 with h2 | h2
  · exfalso
    have := Nat.ofDigitChars_ten_toDigits (n := d)
    rw [h2] at this
    exact hd this.symm
  · cases h : Nat.toDigits 10 d with
    | nil => exact absurd h (toDigits_ne_nil d)
    | cons c r =>
      rw [h] at h2
      exact ⟨c, r, rfl, fun hc => h2 (by rw [hc]; rfl)⟩

theorem jsonInt_of {s : Str} (h : AllDigits s) {c : Char} {r : Str} (hs : s = c :: r) (hc : c ≠ '0') :
    JsonInt s (Nat.ofDigitChars 10 s 0) :=
  ⟨decimal_of_digits (digits_of h (by rw [hs]; simp)), .inr (by rw [hs]; simpa using hc)⟩

theorem jsonExp_text (e : Int) : JsonExp (exponentText e) := by
  refine .inr ⟨'e', signText (e < 0), Nat.toDigits 10 e.natAbs, .inl rfl, ?_, digits_of (allDigits_toDigits _) (toDigits_ne_nil _), rfl⟩
  unfold signText
  split
  · exact .inr (.inr rfl)
  · exact .inl rfl

/-- What is written for a float is a number in the grammar of JSON, and not the one of an integer. -/
theorem ryu_grammar {d : Nat} (hd : d ≠ 0) (k : Int) : ∃ ds frac exp n, JsonInt ds n ∧ JsonFrac frac ∧ JsonExp exp ∧
    (frac = [] → exp ≠ []) ∧ ryuDecimal d k = ds ++ frac ++ exp := by
  have hne := toDigits_ne_nil d
  have ha := allDigits_toDigits d
  obtain ⟨c, r, hcr, hc⟩ := head_toDigits hd
  have hint := jsonInt_of ha hcr hc
  unfold ryuDecimal
  generalize Nat.toDigits 10 d = ds at *
  subst hcr
  simp only
  split
  · exact ⟨c :: r ++ List.replicate k.toNat '0', c!".0", [], _, jsonInt_of (ha.append (allDigits_zeros _)) rfl hc,
      .inr ⟨c!"0", ⟨0, .digit 0 (by decide)⟩, rfl⟩, .inl rfl, nofun, by simp⟩
  split
  · rename_i h1 h2
    have : ∃ m, (↑(c :: r).length + k).toNat = m + 1 := ⟨(↑(c :: r).length + k).toNat - 1, by omega⟩
    obtain ⟨m, hm⟩ := this
    refine ⟨(c :: r).take (↑(c :: r).length + k).toNat, '.' :: (c :: r).drop (↑(c :: r).length + k).toNat, [], _,
      jsonInt_of (ha.take _) (by rw [hm]; rfl) hc, .inr ⟨_, digits_of (ha.drop _) ?_, rfl⟩, .inl rfl, nofun, by simp⟩
    intro h
    have := congrArg List.length h
    rw [List.length_drop] at this
    simp only [List.length_nil] at this
    omega
  split
  · exact ⟨c!"0", '.' :: (List.replicate (-(↑(c :: r).length + k)).toNat '0' ++ (c :: r)), [], 0, ⟨.digit 0 (by decide), .inl rfl⟩,
      .inr ⟨_, digits_of ((allDigits_zeros _).append ha) (by simp), rfl⟩, .inl rfl, nofun, by simp⟩
  split
  · exact ⟨c :: r, [], exponentText (↑(c :: r).length + k - 1), _, hint, .inl rfl, jsonExp_text _, fun _ => by unfold exponentText; simp,
      by simp⟩
  · rename_i h
    refine ⟨[c], '.' :: r, exponentText (↑(c :: r).length + k - 1), _, jsonInt_of (s := [c]) (ha.take 1) rfl hc,
      .inr ⟨r, digits_of (ha.drop 1) ?_, rfl⟩, jsonExp_text _, nofun, by simp⟩
    intro h0
    rw [h0] at h
    exact h rfl

theorem shortest_ne_zero {v : Nat} (h : IsFloat v) (h0 : v ≠ 0) : (shortest v).1 ≠ 0 := by
  intro hs
  have := shortest_reads h
  rw [hs, f64OfDecimal_zero] at this
  exact h0 this.symm

theorem ryu_number {v : Nat} (h : IsFloat v) : ∃ ds frac exp n, JsonInt ds n ∧ JsonFrac frac ∧ JsonExp exp ∧
    (frac = [] → exp ≠ []) ∧ (if v = 0 then c!"0.0" else ryuDecimal (shortest v).1 (shortest v).2) = ds ++ frac ++ exp := by
  split
  · exact ⟨c!"0", c!".0", [], 0, ⟨.digit 0 (by decide), .inl rfl⟩, .inr ⟨c!"0", ⟨0, .digit 0 (by decide)⟩, rfl⟩, .inl rfl, nofun, rfl⟩
  · rename_i h0
    exact ryu_grammar (shortest_ne_zero h h0) _

theorem written_number {n : Bool} {v : Nat} (h : InRange (.finite n v)) {f : Str}
    (hr : serdeFloats.read (serdeFloats.write (F64.show (.finite n v))) = some f) :
    JsonNumber serdeFloats (.float f) (serdeFloats.write (F64.show (.finite n v))) := by
  have hw : serdeFloats.write (F64.show (.finite n v)) = F64.ryu n v := by
    show (match F64.parse (F64.show (.finite n v)) with | some (.finite n v) => F64.ryu n v | _ => c!"null") = _
    rw [parse_show h]
  rw [hw] at hr ⊢
  obtain ⟨ds, frac, exp, a, h1, h2, h3, h4, h5⟩ := ryu_number (inRange_finite.1 h).1
  have he : F64.ryu n v = signText n ++ ds ++ frac ++ exp := by
    unfold F64.ryu
    rw [h5]
    simp
  rw [he] at hr ⊢
  refine .float ?_ h1 h2 h3 (fun h6 h7 => absurd h7 (h4 h6)) hr
  cases n
  · exact .inl rfl
  · exact .inr rfl

end Rops
