import Verif.Lemmas.Shortest
/-!
# Which floats have an exponent in JSON
-/

namespace Rops

open Spec

theorem digits_bounds {d : Nat} (h0 : d ≠ 0) :
    10 ^ ((Nat.toDigits 10 d).length - 1) ≤ d ∧ d < 10 ^ (Nat.toDigits 10 d).length ∧ 0 < (Nat.toDigits 10 d).length := by
  have hl : 0 < (Nat.toDigits 10 d).length := List.length_pos_iff.2 (toDigits_ne_nil d)
  refine ⟨?_, (Nat.length_toDigits_le_iff (by decide) hl).1 (Nat.le_refl _), hl⟩
  rcases Nat.eq_zero_or_pos ((Nat.toDigits 10 d).length - 1) with h | h
  · rw [h]; exact Nat.pos_of_ne_zero h0
  · refine Nat.le_of_not_lt fun hlt => ?_
    have := (Nat.length_toDigits_le_iff (b := 10) (by decide) h).2 hlt
    omega

/-- The text has an exponent if the first digit is far from the point, and otherwise a point. -/
theorem ryu_layout (d : Nat) (k : Int) :
    ('e' ∈ ryuDecimal d k ↔ ¬ (-5 < ((Nat.toDigits 10 d).length : Int) + k ∧ ((Nat.toDigits 10 d).length : Int) + k ≤ 16)) ∧
      ('e' ∉ ryuDecimal d k → ∃ a b, ryuDecimal d k = a ++ '.' :: b ∧ Digits a ∧ Digits b) := by
  have hl : 0 < (Nat.toDigits 10 d).length := List.length_pos_iff.2 (toDigits_ne_nil d)
  have ha := allDigits_toDigits d
  unfold ryuDecimal
  generalize Nat.toDigits 10 d = ds at *
  have hd : ∀ {l : Str}, AllDigits l → 'e' ∉ l := by
    intro l hl hm
    have := hl 'e' hm
    revert this
    decide
  have h0 : AllDigits ['0'] := by intro c hc; simp at hc; subst hc; decide
  simp only
  split
  · rename_i h
    constructor
    · constructor
      · intro hm
        simp only [List.mem_append] at hm
        rcases hm with (hm | hm) | hm
        · exact (hd ha hm).elim
        · exact (hd (allDigits_zeros _) hm).elim
        · simp at hm
      · intro hn; omega
    · intro _
      exact ⟨ds ++ List.replicate k.toNat '0', ['0'], rfl, digits_of (ha.append (allDigits_zeros _)) (by intro e; simp at e; simp [e.1] at hl),
        digits_of h0 nofun⟩
  · split
    · rename_i h1 h2
      constructor
      · constructor
        · intro hm
          simp only [List.mem_append, List.mem_cons] at hm
          rcases hm with hm | hm | hm
          · exact (hd ha (List.mem_of_mem_take hm)).elim
          · simp at hm
          · exact (hd ha (List.mem_of_mem_drop hm)).elim
        · intro hn; omega
      · intro _
        refine ⟨_, _, rfl, digits_of (fun c hc => ha c (List.mem_of_mem_take hc)) ?_, digits_of (fun c hc => ha c (List.mem_of_mem_drop hc)) ?_⟩
        · intro e
          have := congrArg List.length e
          simp only [List.length_take, List.length_nil] at this
          omega
        · intro e
          have := congrArg List.length e
          simp only [List.length_drop, List.length_nil] at this
          omega
    · split
      · rename_i h1 h2 h3
        constructor
        · constructor
          · intro hm
            simp only [List.mem_append] at hm
            rcases hm with (hm | hm) | hm
            · simp at hm
            · exact (hd (allDigits_zeros _) hm).elim
            · exact (hd ha hm).elim
          · intro hn; omega
        · intro _
          exact ⟨['0'], List.replicate (-((ds.length : Int) + k)).toNat '0' ++ ds, by simp, digits_of h0 nofun,
            digits_of ((allDigits_zeros _).append ha) (by intro e; simp at e; simp [e.2] at hl)⟩
      · rename_i h1 h2 h3
        have he : ∀ e : Int, 'e' ∈ exponentText e := fun e => by simp [exponentText]
        split
        · exact ⟨⟨fun _ => by omega, fun _ => List.mem_append_right _ (he _)⟩, fun hn => (hn (List.mem_append_right _ (he _))).elim⟩
        · exact ⟨⟨fun _ => by omega, fun _ => List.mem_append_right _ (he _)⟩, fun hn => (hn (List.mem_append_right _ (he _))).elim⟩

theorem pow10_le {a b : Nat} : 10 ^ a ≤ 10 ^ b ↔ a ≤ b := Nat.pow_le_pow_iff_right (by decide)

/-- Where the first digit of a number is. -/
theorem place_below {n l : Nat} (e : Int) (hl : 0 < l) (h1 : 10 ^ (l - 1) ≤ n) (h2 : n < 10 ^ l) :
    (n * 10 ^ e.toNat < 10 ^ 16 * 10 ^ (-e).toNat ↔ (l : Int) + e ≤ 16) ∧
      (10 ^ (-e).toNat ≤ n * 10 ^ e.toNat * 10 ^ 5 ↔ -5 < (l : Int) + e) := by
  have p := fun a => Nat.pow_pos (a := 10) (n := a) (by decide)
  rcases Int.le_total 0 e with he | he
  · obtain ⟨a, rfl⟩ := Int.eq_ofNat_of_zero_le he
    have e1 : (-(a : Int)).toNat = 0 := by omega
    rw [e1, Int.toNat_natCast]
    constructor
    · constructor
      · intro h
        refine Int.not_lt.1 fun hn => ?_
        have : 10 ^ 16 ≤ 10 ^ (l - 1 + a) := pow10_le.2 (by omega)
        rw [Nat.pow_add] at this
        have := Nat.mul_le_mul_right (10 ^ a) h1
        omega
      · intro h
        have : 10 ^ (l + a) ≤ 10 ^ 16 := pow10_le.2 (by omega)
        rw [Nat.pow_add] at this
        have := Nat.mul_lt_mul_of_pos_right h2 (p a)
        omega
    · refine ⟨fun _ => by omega, fun _ => ?_⟩
      have : 0 < n := Nat.lt_of_lt_of_le (p _) h1
      have := Nat.mul_pos this (p a)
      omega
  · obtain ⟨a, ha⟩ := Int.eq_ofNat_of_zero_le (show 0 ≤ -e by omega)
    obtain rfl : e = -(a : Int) := by omega
    have e1 : (-(a : Int)).toNat = 0 := by omega
    have e2 : (- -(a : Int)).toNat = a := by omega
    rw [e1, e2, Nat.pow_zero, Nat.mul_one, ← Nat.pow_add]
    constructor
    · constructor
      · intro h
        refine Int.not_lt.1 fun hn => ?_
        have : 10 ^ (16 + a) ≤ 10 ^ (l - 1) := pow10_le.2 (by omega)
        omega
      · intro h
        have : 10 ^ l ≤ 10 ^ (16 + a) := pow10_le.2 (by omega)
        omega
    · constructor
      · intro h
        refine Int.not_le.1 fun hn => ?_
        have : 10 ^ (l + 5) ≤ 10 ^ a := pow10_le.2 (by omega)
        rw [Nat.pow_add] at this
        omega
      · intro h
        have : 10 ^ a ≤ 10 ^ (l - 1 + 5) := pow10_le.2 (by omega)
        rw [Nat.pow_add] at this
        exact Nat.le_trans this (Nat.mul_le_mul_right _ h1)

/-- What stands for the shortest decimal is one, and its first digit is at the same place. -/
theorem shortest_decimal_at {v : Nat} (h : InRange (.finite neg v)) (h0 : v ≠ 0) {x : Str} (hx : Stands x (shortest v).1 (shortest v).2) :
    ∃ (n : Nat) (e : Int) (j : Nat), DecimalText x n e ∧ ShortestDecimal v n e ∧ n = (shortest v).1 * 10 ^ j ∧ (shortest v).2 = e + (j : Int) := by
  obtain ⟨hv, hl⟩ := inRange_finite.1 h
  obtain ⟨_, hc⟩ := shortest_spec hv h0 hl
  have hr := shortest_reads hv
  obtain ⟨ds, fs, ex, i, h1, h2, h3, h4, _, h6, j, h7, h8⟩ := hx.parts
  refine ⟨_, _, j, ⟨ds, fs, ex, i, digits_of h1 h2, decimal_of_digits (digits_of (h1.append h3) (by simp [h2])), rfl, floatExponent_iff.1 h4, h6⟩, ⟨?_, ?_, ?_⟩, h7, h8⟩
  · rw [nearestDecimal_iff, h7, f64OfDecimal_shift, ← h8, hr]
  · intro n' e' m hn hm
    rw [nearestDecimal_iff] at hn
    exact ⟨_, _, h7, shortest_digits hv h0 hl hn.symm hm⟩
  · refine ⟨_, _, h7, ?_⟩
    rw [← h8]
    intro d' hd'
    rw [nearestDecimal_iff] at hd'
    have := hc d' hd'.symm
    rwa [f64One_eq] at this

theorem ryu_written {neg : Bool} {v : Nat} (h : InRange (.finite neg v)) (h0 : v ≠ 0) :
    ∃ n e, DecimalText (ryuDecimal (shortest v).1 (shortest v).2) n e ∧ ShortestDecimal v n e ∧
      ('e' ∉ ryuDecimal (shortest v).1 (shortest v).2 ↔
        10 ^ (-e).toNat ≤ n * 10 ^ e.toNat * 10 ^ 5 ∧ n * 10 ^ e.toNat < 10 ^ 16 * 10 ^ (-e).toNat) := by
  obtain ⟨n, e, j, h1, h2, h3, h4⟩ := shortest_decimal_at h h0 (stands_ryu _ _)
  refine ⟨n, e, h1, h2, ?_⟩
  obtain ⟨b1, b2, b3⟩ := digits_bounds (shortest_ne_zero (inRange_finite.1 h).1 h0)
  rw [(ryu_layout _ _).1, Classical.not_not]
  generalize (Nat.toDigits 10 (shortest v).1).length = l at *
  have hn := place_below (n := n) (l := l + j) e (by omega)
    (by rw [h3, show l + j - 1 = l - 1 + j by omega, Nat.pow_add]; exact Nat.mul_le_mul_right _ b1)
    (by rw [h3, Nat.pow_add]; exact Nat.mul_lt_mul_of_pos_right b2 (Nat.pow_pos (by decide)))
  rw [hn.1, hn.2, h4]
  omega

end Rops
