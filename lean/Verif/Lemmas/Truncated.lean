import Verif.Lemmas.Shortest
/-!
# Digits that `serde_json` drops
-/

namespace Rops
open Spec

attribute [local irreducible] f64One f64Limit

/-! ## Digits that are dropped -/

theorem ofDigits_lt {s : Str} (h : AllDigits s) : Nat.ofDigitChars 10 s 0 < 10 ^ s.length := by
  induction s with
  | nil => decide
  | cons c s ih =>
    rw [Nat.ofDigitChars_cons, Nat.ofDigitChars_eq_ofDigitChars_zero, List.length_cons, Nat.pow_succ]
    have hc := h c (by simp)
    simp only [Char.isDigit, ge_iff_le, Bool.and_eq_true, decide_eq_true_eq] at hc
    have h2 : c.toNat ≤ 57 := hc.2
    have e : '0'.toNat = 48 := rfl
    have h3 := ih fun d hd => h d (by simp [hd])
    have h4 : 10 * 0 + (c.toNat - '0'.toNat) ≤ 9 := by omega
    have h5 := Nat.mul_le_mul_left (10 ^ s.length) h4
    omega

theorem takeDigits_parts {ds r : Str} (hd : AllDigits ds) (hr : NoDigit r) (sig : Nat) (hs : sig < 2 ^ 64) :
    ∃ ds1 ds2, ds = ds1 ++ ds2 ∧ takeDigits sig (ds ++ r) = (Nat.ofDigitChars 10 ds1 sig, ds1.length, ds2 ++ r) ∧
      Nat.ofDigitChars 10 ds1 sig < 2 ^ 64 ∧ (ds2 = [] ∨ 2 ^ 60 ≤ Nat.ofDigitChars 10 ds1 sig) := by
  induction ds generalizing sig with
  | nil =>
    refine ⟨[], [], rfl, ?_, hs, .inl rfl⟩
    cases r with
    | nil => rfl
    | cons c r =>
      have := hr c (by simp)
      simp [takeDigits, this]
  | cons c ds ih =>
    have hc := hd c (by simp)
    have hc' := hc
    simp only [Char.isDigit, ge_iff_le, Bool.and_eq_true, decide_eq_true_eq] at hc'
    have h2 : c.toNat ≤ 57 := hc'.2
    have e : '0'.toNat = 48 := rfl
    by_cases hf : fitsU64 sig c = true
    · have hf' : sig * 10 + (c.toNat - 48) < 2 ^ 64 := by simpa [fitsU64] using hf
      obtain ⟨ds1, ds2, h1, h2, h3, h4⟩ := ih (fun d hd' => hd d (by simp [hd'])) (sig * 10 + (c.toNat - 48)) hf'
      refine ⟨c :: ds1, ds2, by rw [h1]; rfl, ?_, ?_, ?_⟩
      · rw [List.cons_append, takeDigits, if_pos ⟨hc, hf⟩]
        simp only [h2, Nat.ofDigitChars_cons, e, Nat.mul_comm, List.length_cons]
      · rw [Nat.ofDigitChars_cons, e, Nat.mul_comm]; exact h3
      · rw [Nat.ofDigitChars_cons, e, Nat.mul_comm]; exact h4
    · refine ⟨[], c :: ds, rfl, ?_, hs, .inr ?_⟩
      · rw [List.cons_append, takeDigits, if_neg (fun h => hf h.2)]
        rfl
      · have hf' : ¬ sig * 10 + (c.toNat - 48) < 2 ^ 64 := by simpa [fitsU64] using hf
        show 2 ^ 60 ≤ sig
        omega

/-- Significand and exponent are those of the number, but for digits after about eighteen. -/
theorem serdeParts_close {ds fs ex : Str} {i : Int} (hd : AllDigits ds) (hf : AllDigits fs) (hx : NoDigit ex)
    (hdot : ex.head? ≠ some '.') (he : floatExponent ex = some i) :
    ∃ sig j : Nat, serdeParts (ds ++ (if fs = [] then [] else '.' :: fs) ++ ex) = some (sig, i - fs.length + (j : Int)) ∧ sig < 2 ^ 64 ∧
      ((Nat.ofDigitChars 10 (ds ++ fs) 0 - sig * 10 ^ j) + (sig * 10 ^ j - Nat.ofDigitChars 10 (ds ++ fs) 0)) * 2 ^ 60 ≤
        Nat.ofDigitChars 10 (ds ++ fs) 0 := by
  have key : ∀ {s1 b z t : Nat}, 2 ^ 60 ≤ s1 → b < z → t < z →
      ((z * s1 + b - (z * s1 + t)) + (z * s1 + t - (z * s1 + b))) * 2 ^ 60 ≤ z * s1 + b := by
    intro s1 b z t h1 h2 h3
    have hd : (z * s1 + b - (z * s1 + t)) + (z * s1 + t - (z * s1 + b)) ≤ z := by omega
    exact Nat.le_trans (Nat.mul_le_mul_right _ hd) (Nat.le_trans (Nat.mul_le_mul_left z h1) (Nat.le_add_right _ _))
  unfold serdeParts
  have hlong : ∀ {ds1 ds2 : Str}, ds = ds1 ++ ds2 → ∀ r, AllDigits r → Nat.ofDigitChars 10 (ds ++ r) 0 =
      10 ^ (ds2 ++ r).length * Nat.ofDigitChars 10 ds1 0 + Nat.ofDigitChars 10 (ds2 ++ r) 0 ∧
      Nat.ofDigitChars 10 (ds2 ++ r) 0 < 10 ^ (ds2 ++ r).length := by
    rintro ds1 ds2 rfl r hr
    rw [List.append_assoc, Nat.ofDigitChars_append, Nat.ofDigitChars_eq_ofDigitChars_zero]
    exact ⟨rfl, ofDigits_lt (AllDigits.append (fun c hc => hd c (by simp [hc])) hr)⟩
  by_cases h : fs = []
  · subst h
    obtain ⟨ds1, ds2, h1, h2, h3, h4⟩ := takeDigits_parts hd hx 0 (by decide)
    obtain ⟨g1, g2⟩ := hlong h1 [] (fun _ h => nomatch h)
    have hds2 : AllDigits ds2 := fun c hc => hd c (by rw [h1]; simp [hc])
    simp only [if_true, List.append_nil, h2, scanDigits_append hds2 hx, takePoint_none hdot, scanDigits_none hx, he, Option.map_some] at *
    refine ⟨Nat.ofDigitChars 10 ds1 0, ds2.length, ?_, h3, ?_⟩
    · congr 2; simp; omega
    · rw [g1]
      rcases h4 with rfl | h4
      · simp only [List.length_nil, Nat.pow_zero, Nat.one_mul, Nat.mul_one, Nat.ofDigitChars_nil, Nat.add_zero, Nat.sub_self, Nat.zero_mul, Nat.zero_le]
      · have := key h4 g2 (t := 0) (Nat.pow_pos (by decide))
        rw [Nat.mul_comm (Nat.ofDigitChars 10 ds1 0) (10 ^ ds2.length)]
        exact this
  · have hx' : NoDigit (('.' :: fs) ++ ex) := by intro c hc; cases hc; decide
    obtain ⟨ds1, ds2, h1, h2, h3, h4⟩ := takeDigits_parts hd hx' 0 (by decide)
    obtain ⟨fs1, fs2, f1, f2, f3, f4⟩ := takeDigits_parts hf hx (Nat.ofDigitChars 10 ds1 0) h3
    have hds2 : AllDigits ds2 := fun c hc => hd c (by rw [h1]; simp [hc])
    have hfs1 : AllDigits fs1 := fun c hc => hf c (by rw [f1]; simp [hc])
    have hfs2 : AllDigits fs2 := fun c hc => hf c (by rw [f1]; simp [hc])
    rw [if_neg h, List.append_assoc, h2]
    have hp : takePoint (Nat.ofDigitChars 10 ds1 0) ('.' :: fs ++ ex) = takeDigits (Nat.ofDigitChars 10 ds1 0) (fs ++ ex) := rfl
    simp only [scanDigits_append hds2 hx', hp, f2, scanDigits_append hfs2 hx, he, Option.map_some]
    have hflen : fs.length = fs1.length + fs2.length := by rw [f1, List.length_append]
    refine ⟨Nat.ofDigitChars 10 fs1 (Nat.ofDigitChars 10 ds1 0), ds2.length + fs2.length, ?_, f3, ?_⟩
    · congr 2; omega
    · obtain ⟨g1, g2⟩ := hlong h1 fs hf
      have hs2 : Nat.ofDigitChars 10 fs1 (Nat.ofDigitChars 10 ds1 0) * 10 ^ (ds2.length + fs2.length) =
          10 ^ (ds2 ++ fs).length * Nat.ofDigitChars 10 ds1 0 + Nat.ofDigitChars 10 fs1 0 * 10 ^ (ds2.length + fs2.length) := by
        rw [Nat.ofDigitChars_eq_ofDigitChars_zero, Nat.add_mul, List.length_append, hflen]
        congr 1
        rw [show ds2.length + (fs1.length + fs2.length) = fs1.length + (ds2.length + fs2.length) by omega, Nat.pow_add 10 fs1.length]
        simp only [Nat.mul_assoc, Nat.mul_comm, Nat.mul_left_comm]
      have ht : Nat.ofDigitChars 10 fs1 0 * 10 ^ (ds2.length + fs2.length) < 10 ^ (ds2 ++ fs).length := by
        rw [List.length_append, hflen, show ds2.length + (fs1.length + fs2.length) = fs1.length + (ds2.length + fs2.length) by omega,
          Nat.pow_add 10 fs1.length]
        exact Nat.mul_lt_mul_of_pos_right (ofDigits_lt hfs1) (Nat.pow_pos (by decide))
      rcases h4 with rfl | h4
      · -- all digits before the point are taken
        rw [List.append_nil] at h1
        subst h1
        have e1 : Nat.ofDigitChars 10 (ds ++ fs) 0 = 10 ^ fs2.length * Nat.ofDigitChars 10 fs1 (Nat.ofDigitChars 10 ds 0) + Nat.ofDigitChars 10 fs2 0 := by
          rw [f1, Nat.ofDigitChars_append, Nat.ofDigitChars_append, Nat.ofDigitChars_eq_ofDigitChars_zero (l := fs2)]
        rw [e1]
        rcases f4 with rfl | f4
        · simp
        · have := key f4 (ofDigits_lt hfs2) (t := 0) (Nat.pow_pos (by decide))
          rw [List.length_nil, Nat.zero_add, Nat.mul_comm _ (10 ^ fs2.length)]
          simpa using this
      · rw [hs2, g1]
        exact key h4 g2 ht

theorem moderate_iff {v : Nat} : Moderate v ↔ v * 2 < f64Limit := by
  unfold Moderate
  rw [f64Limit_eq]

theorem three_moderate : InRange (.finite true (3 * f64One)) ∧ Moderate (3 * f64One) := by
  have h : 3 * f64One * 2 < f64Limit := by rw [f64One_eq, f64Limit_eq]; decide +kernel
  exact ⟨inRange_finite.2 ⟨isFloat_one_mul (isFloat_small (by decide)), by omega⟩, moderate_iff.2 h⟩

end Rops
