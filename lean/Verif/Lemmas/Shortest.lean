import Verif.Lemmas.Floats
/-!
# Floats: ties, monotonicity, and the shortest decimal
-/

namespace Rops
open Spec

attribute [local irreducible] f64One f64Limit

/-! ## The nearest float, and ties -/

theorem round_even {p q w : Nat} (hq : 0 < q) (hw : IsFloat w) (hne : w ≠ f64Round p q)
    (he : offBy p q w = offBy p q (f64Round p q)) : 2 * ((w - f64Round p q) + (f64Round p q - w)) ∣ f64Round p q := by
  have hsp := f64Step_pos (p / q)
  have hlow : w ≤ p / q → w ≤ p / q / f64Step (p / q) * f64Step (p / q) := fun h => prev_float hw h
  have hhigh : p / q < w → (p / q / f64Step (p / q) + 1) * f64Step (p / q) ≤ w := fun h => next_float hw h
  unfold offBy f64Round roundEven at *
  rw [Nat.div_div_eq_div_mul] at hlow hhigh
  generalize hu : f64Step (p / q) = u at *
  have hdm := Nat.div_add_mod p (q * u)
  have hml := Nat.mod_lt p (Nat.mul_pos hq hsp)
  generalize ha : p / (q * u) = a at *
  generalize p % (q * u) = r at *
  have e1 : a * u * q = q * u * a := by simp only [Nat.mul_comm, Nat.mul_left_comm]
  have e2 : (a + 1) * u * q = q * u * a + q * u := by
    rw [Nat.add_mul, Nat.add_mul, e1, Nat.one_mul, Nat.mul_comm u q]
  have e3 : (a + 1) * u = a * u + u := by rw [Nat.add_mul, Nat.one_mul]
  rcases Nat.lt_or_ge (p / q) w with h | h
  · have h1 := hhigh h
    have h2 := Nat.mul_le_mul_right q h1
    rw [e2] at h2
    split at he
    · rename_i hc
      rw [if_pos hc] at hne ⊢
      rw [e1] at he
      -- both are as far as half a step
      have hweq : w * q = q * u * a + q * u := by omega
      have hwu : w = (a + 1) * u := by
        have : w * q = (a + 1) * u * q := by rw [e2]; exact hweq
        exact Nat.eq_of_mul_eq_mul_right hq this
      have hev : a % 2 = 0 := by omega
      rw [hwu, e3, show a * u + u - a * u + (a * u - (a * u + u)) = u by omega]
      exact Nat.mul_dvd_mul_right (Nat.dvd_of_mod_eq_zero hev) u
    · rename_i hc
      rw [if_neg hc] at hne
      rw [e2] at he
      have : w * q = (a + 1) * u * q := by rw [e2]; omega
      exact absurd (Nat.eq_of_mul_eq_mul_right hq this) hne
  · have h1 := hlow h
    have h2 := Nat.mul_le_mul_right q h1
    rw [e1] at h2
    split at he
    · rename_i hc
      rw [if_pos hc] at hne
      rw [e1] at he
      have : w * q = a * u * q := by rw [e1]; omega
      exact absurd (Nat.eq_of_mul_eq_mul_right hq this) hne
    · rename_i hc
      rw [if_neg hc] at hne ⊢
      rw [e2] at he
      have hweq : w * q = q * u * a := by omega
      have hwu : w = a * u := by
        have : w * q = a * u * q := by rw [e1]; exact hweq
        exact Nat.eq_of_mul_eq_mul_right hq this
      have hev : (a + 1) % 2 = 0 := by omega
      rw [hwu, e3, show a * u - (a * u + u) + (a * u + u - a * u) = u by omega, ← e3]
      exact Nat.mul_dvd_mul_right (Nat.dvd_of_mod_eq_zero hev) u

theorem nearest_round {p q : Nat} (hq : 0 < q) : Nearest p q (f64Round p q) :=
  ⟨isFloat_round p q, fun _ hw => ⟨round_nearest hq hw, round_even hq hw⟩⟩

theorem nearest_unique {p q v w : Nat} (h : Nearest p q v) (h' : Nearest p q w) : v = w := by
  refine Decidable.byContradiction fun hne => ?_
  have h1 := (h.2 w h'.1).1
  have h2 := (h'.2 v h.1).1
  obtain ⟨a, ha⟩ := (h.2 w h'.1).2 (Ne.symm hne) (by omega)
  obtain ⟨b, hb⟩ := (h'.2 v h.1).2 hne (by omega)
  have hg : v - w + (w - v) = w - v + (v - w) := by omega
  rw [hg] at hb
  generalize hd : w - v + (v - w) = g at *
  have hg0 : 0 < g := by omega
  rcases Nat.lt_or_ge a b with hlt | hge
  · have := Nat.mul_le_mul_left (2 * g) hlt
    rw [Nat.mul_succ] at this
    omega
  · rcases Nat.lt_or_ge b a with hlt | hge'
    · have := Nat.mul_le_mul_left (2 * g) hlt
      rw [Nat.mul_succ] at this
      omega
    · have : a = b := by omega
      subst this
      omega

theorem nearest_iff {p q v : Nat} (hq : 0 < q) : Nearest p q v ↔ v = f64Round p q :=
  ⟨fun h => nearest_unique h (nearest_round hq), fun h => h ▸ nearest_round hq⟩

theorem nearestDecimal_iff {n : Nat} {e : Int} {v : Nat} : NearestDecimal n e v ↔ v = f64OfDecimal n e := by
  unfold NearestDecimal f64OfDecimal
  rw [f64One_eq]
  exact nearest_iff (Nat.pow_pos (by decide))

/-! ## Monotone -/

theorem f64Round_mono {p q p' q' : Nat} (hq : 0 < q) (hq' : 0 < q') (h : p * q' ≤ p' * q) : f64Round p q ≤ f64Round p' q' := by
  refine Decidable.byContradiction fun hlt => ?_
  have hlt : f64Round p' q' < f64Round p q := by omega
  have hv := isFloat_round p q
  have hv' := isFloat_round p' q'
  have n1 := round_nearest (p := p) hq hv'
  have n2 := round_nearest (p := p') hq' hv
  have c : ¬ p * q' = p' * q := fun he => by rw [f64Round_congr hq hq' he] at hlt; omega
  generalize f64Round p q = v at *
  generalize f64Round p' q' = v' at *
  -- in units of q * q'
  have m1 : (v * q - p) * q' + (p - v * q) * q' ≤ (v' * q - p) * q' + (p - v' * q) * q' := by
    rw [← Nat.add_mul, ← Nat.add_mul]; exact Nat.mul_le_mul_right q' n1
  have m2 : (v' * q' - p') * q + (p' - v' * q') * q ≤ (v * q' - p') * q + (p' - v * q') * q := by
    rw [← Nat.add_mul, ← Nat.add_mul]; exact Nat.mul_le_mul_right q n2
  have hlt' : v' * (q * q') < v * (q * q') := Nat.mul_lt_mul_of_pos_right hlt (Nat.mul_pos hq hq')
  have e1 : v * q * q' = v * (q * q') := Nat.mul_assoc _ _ _
  have e2 : v' * q * q' = v' * (q * q') := Nat.mul_assoc _ _ _
  have e3 : v * q' * q = v * (q * q') := by rw [Nat.mul_assoc, Nat.mul_comm q']
  have e4 : v' * q' * q = v' * (q * q') := by rw [Nat.mul_assoc, Nat.mul_comm q']
  simp only [Nat.sub_mul, e1, e2, e3, e4] at m1 m2
  generalize v * (q * q') = x at *
  generalize v' * (q * q') = x' at *
  generalize p * q' = y at *
  generalize p' * q = y' at *
  omega

/-- `d` times ten to the `k` is not more than `d'` times ten to the `k'`. -/
theorem ofDecimal_mono {d d' : Nat} {k k' : Int} (h : d * 10 ^ k.toNat * 10 ^ (-k').toNat ≤ d' * 10 ^ k'.toNat * 10 ^ (-k).toNat) :
    f64OfDecimal d k ≤ f64OfDecimal d' k' := by
  unfold f64OfDecimal
  refine f64Round_mono (Nat.pow_pos (by decide)) (Nat.pow_pos (by decide)) ?_
  rw [Nat.mul_right_comm, Nat.mul_right_comm _ f64One]
  exact Nat.mul_le_mul_right _ h

theorem ofDecimal_mono_left {d d' : Nat} (h : d ≤ d') (k : Int) : f64OfDecimal d k ≤ f64OfDecimal d' k :=
  ofDecimal_mono (Nat.mul_le_mul_right _ (Nat.mul_le_mul_right _ h))

/-! ## The shortest decimal -/

/-- How far `d` times ten to the `k` is from `v`, in a unit that depends on `k`. -/
theorem decimalAt_of {v d : Nat} {k : Int} (hv : IsFloat v) (h : f64OfDecimal d k = v) :
    ∃ d0, decimalAt v k = some (d0, k) ∧ f64OfDecimal d0 k = v ∧
      offBy (v * 10 ^ (-k).toNat) (10 ^ k.toNat * f64One) d0 ≤ offBy (v * 10 ^ (-k).toNat) (10 ^ k.toNat * f64One) d := by
  have hq : 0 < 10 ^ k.toNat * f64One := Nat.mul_pos (Nat.pow_pos (by decide)) f64One_pos
  have hup : ∀ x, v * 10 ^ (-k).toNat ≤ x * (10 ^ k.toNat * f64One) → v ≤ f64OfDecimal x k := fun x hx => by
    unfold f64OfDecimal
    exact float_le_round (Nat.pow_pos (by decide)) hv (by rw [Nat.mul_assoc]; exact hx)
  have hdown : ∀ x, x * (10 ^ k.toNat * f64One) ≤ v * 10 ^ (-k).toNat → f64OfDecimal x k ≤ v := fun x hx => by
    unfold f64OfDecimal
    exact round_le_float (Nat.pow_pos (by decide)) hv (by rw [Nat.mul_assoc]; exact hx)
  have hm : ∀ x y, x ≤ y → f64OfDecimal x k ≤ f64OfDecimal y k := fun x y hxy => ofDecimal_mono_left hxy k
  unfold decimalAt decimalsNear offBy
  simp only
  generalize v * 10 ^ (-k).toNat = p at *
  generalize 10 ^ k.toNat * f64One = q at *
  have hdm := Nat.div_add_mod p q
  have hml := Nat.mod_lt p hq
  generalize p / q = a at *
  generalize p % q = r at *
  have ea : (a + 1) * q = a * q + q := by rw [Nat.add_mul, Nat.one_mul]
  have eq' : q * a = a * q := Nat.mul_comm _ _
  have hcase : (d ≤ a ∧ f64OfDecimal a k = v) ∨ (a + 1 ≤ d ∧ f64OfDecimal (a + 1) k = v) := by
    rcases Nat.lt_or_ge a d with hd | hd
    · refine .inr ⟨hd, ?_⟩
      have h1 := hup (a + 1) (by omega)
      have h2 := hm (a + 1) d hd
      omega
    · refine .inl ⟨hd, ?_⟩
      have h1 := hdown a (by omega)
      have h2 := hm d a hd
      omega
  have hdq1 : d ≤ a → d * q ≤ a * q := fun h => Nat.mul_le_mul_right q h
  have hdq2 : a + 1 ≤ d → a * q + q ≤ d * q := fun h => by rw [← ea]; exact Nat.mul_le_mul_right q h
  split
  · by_cases h1 : f64OfDecimal a k = v
    · refine ⟨a, by simp [h1], h1, ?_⟩
      rcases hcase with ⟨hd, _⟩ | ⟨hd, _⟩
      · have := hdq1 hd; omega
      · have := hdq2 hd; omega
    · rcases hcase with ⟨_, h2⟩ | ⟨hd, h2⟩
      · exact absurd h2 h1
      · refine ⟨a + 1, by simp [h1, h2], h2, ?_⟩
        have := hdq2 hd
        omega
  · by_cases h1 : f64OfDecimal (a + 1) k = v
    · refine ⟨a + 1, by simp [h1], h1, ?_⟩
      rcases hcase with ⟨hd, _⟩ | ⟨hd, _⟩
      · have := hdq1 hd; omega
      · have := hdq2 hd; omega
    · rcases hcase with ⟨hd, h2⟩ | ⟨_, h2⟩
      · refine ⟨a, by simp [h1, h2], h2, ?_⟩
        have := hdq1 hd
        omega
      · exact absurd h2 h1

/-- `exponentAbove`, of the logarithm. -/
def above (l : Nat) : Int := ((l : Int) - 1073) * 30103 / 100000 + 2

theorem above_large : ∀ l < 2098, 2 ^ (l + 1) * 10 ^ (-(above l + 1)).toNat ≤ 10 ^ (above l + 1).toNat * 2 ^ 1074 := by decide +kernel

theorem below_small : ∀ l < 2098, 2 * (10 ^ (above l - 23).toNat * 2 ^ 1074) < 2 ^ (l - 52) * 10 ^ (-(above l - 23)).toNat := by decide +kernel

theorem log2_limit {v : Nat} (hl : v < f64Limit) : v.log2 < 2098 := by
  by_cases h0 : v = 0
  · subst h0; decide
  · have : f64Limit = 2 ^ 2098 := by rw [f64Limit_eq, ← Nat.pow_add]
    rw [this] at hl
    exact (Nat.log2_lt h0).2 hl

/-- No exponent above is possible. -/
theorem exponent_le {v d : Nat} {k : Int} (h0 : v ≠ 0) (hl : v < f64Limit) (h : f64OfDecimal d k = v) : k ≤ exponentAbove v := by
  refine Decidable.byContradiction fun hk => ?_
  have hd : 1 ≤ d := by
    rcases Nat.eq_zero_or_pos d with rfl | hd
    · rw [f64OfDecimal_zero] at h; exact absurd h.symm h0
    · exact hd
  have hk : exponentAbove v + 1 ≤ k := by omega
  have h1 : f64OfDecimal 1 (exponentAbove v + 1) ≤ f64OfDecimal d k := by
    have e := f64OfDecimal_shift d (k - (exponentAbove v + 1)).toNat (exponentAbove v + 1)
    rw [show exponentAbove v + 1 + ((k - (exponentAbove v + 1)).toNat : Int) = k by omega] at e
    rw [← e]
    refine ofDecimal_mono_left ?_ _
    exact Nat.mul_pos hd (Nat.pow_pos (by decide))
  have h2 : 2 ^ (v.log2 + 1) ≤ f64OfDecimal 1 (exponentAbove v + 1) := by
    unfold f64OfDecimal
    refine float_le_round (Nat.pow_pos (by decide)) ⟨1, v.log2 + 1, by decide, by simp⟩ ?_
    have := above_large v.log2 (log2_limit hl)
    rw [f64One_eq, Nat.one_mul]
    exact this
  have h3 := Nat.lt_log2_self (n := v)
  omega

/-- The last exponent is small enough. -/
theorem exponent_enough {v : Nat} (hv : IsFloat v) (hl : v < f64Limit) : ∃ d, f64OfDecimal d (exponentAbove v - 23) = v := by
  refine ⟨v * 10 ^ (-(exponentAbove v - 23)).toNat / (10 ^ (exponentAbove v - 23).toNat * f64One) + 1, ?_⟩
  have hs := below_small v.log2 (log2_limit hl)
  rw [show above v.log2 = exponentAbove v from rfl, ← f64One_eq] at hs
  unfold f64OfDecimal
  rw [show 2 ^ (v.log2 - 52) = f64Step v from rfl] at hs
  generalize (exponentAbove v - 23) = k at *
  have hb : 0 < 10 ^ (-k).toNat := Nat.pow_pos (by decide)
  have hq : 0 < 10 ^ k.toNat * f64One := Nat.mul_pos (Nat.pow_pos (by decide)) f64One_pos
  rw [Nat.mul_assoc]
  generalize 10 ^ (-k).toNat = b at *
  generalize 10 ^ k.toNat * f64One = q at *
  have hdm := Nat.div_add_mod (v * b) q
  have hml := Nat.mod_lt (v * b) hq
  generalize v * b / q = a at *
  have ea : (a + 1) * q = q * a + q := by rw [Nat.add_mul, Nat.one_mul, Nat.mul_comm]
  have hlow : v ≤ f64Round ((a + 1) * q) b := float_le_round hb hv (by omega)
  refine Decidable.byContradiction fun hne => ?_
  have hgt : v < f64Round ((a + 1) * q) b := by omega
  have h1 := next_float (isFloat_round ((a + 1) * q) b) hgt
  have h2 := round_nearest (p := (a + 1) * q) hb hv
  have h3 := Nat.mul_le_mul_right b h1
  have h4 : (v / f64Step v + 1) * f64Step v = v + f64Step v := by
    rw [Nat.add_mul, Nat.one_mul, Nat.div_mul_cancel (isFloat_iff.1 hv)]
  rw [h4, Nat.add_mul] at h3
  generalize f64Round ((a + 1) * q) b * b = r at *
  generalize f64Step v * b = u at *
  omega

/-- What is chosen: a decimal that is read as `v`, with the largest exponent, and the nearest one with it. -/
theorem shortest_spec {v : Nat} (hv : IsFloat v) (h0 : v ≠ 0) (hl : v < f64Limit) :
    (∀ d k, f64OfDecimal d k = v → k ≤ (shortest v).2) ∧
    (∀ d, f64OfDecimal d (shortest v).2 = v →
      offBy (v * 10 ^ (-(shortest v).2).toNat) (10 ^ (shortest v).2.toNat * f64One) (shortest v).1 ≤
        offBy (v * 10 ^ (-(shortest v).2).toNat) (10 ^ (shortest v).2.toNat * f64One) d) := by
  obtain ⟨dl, hdl⟩ := exponent_enough hv hl
  obtain ⟨dl0, hdl0, _, _⟩ := decimalAt_of hv hdl
  unfold shortest
  cases hf : (List.range 24).findSome? fun (i : Nat) => decimalAt v (exponentAbove v - (i : Int)) with
  | none =>
    rw [List.findSome?_eq_none_iff] at hf
    have := hf 23 (by simp)
    rw [show exponentAbove v - ((23 : Nat) : Int) = exponentAbove v - 23 by omega, hdl0] at this
    cases this
  | some r =>
    rw [List.findSome?_eq_some_iff] at hf
    obtain ⟨l1, i, l2, hl1, hi, hbefore⟩ := hf
    have hlen : l1.length = i := by
      have h1 : (List.range 24)[l1.length]? = some i := by rw [hl1]; simp
      have h2 : l1.length < 24 := by
        have := congrArg List.length hl1
        simp at this
        omega
      rw [List.getElem?_range h2] at h1
      exact Option.some.inj h1
    have hmem : ∀ j < i, j ∈ l1 := by
      intro j hj
      have h1 : (List.range 24)[j]? = some j := by
        have := congrArg List.length hl1
        simp at this
        exact List.getElem?_range (by omega)
      rw [hl1, List.getElem?_append_left (by omega)] at h1
      exact List.mem_of_getElem? h1
    have hk : r.2 = exponentAbove v - (i : Int) := by
      unfold decimalAt at hi
      obtain ⟨x, _, rfl⟩ := Option.map_eq_some_iff.1 hi
      rfl
    simp only [Option.getD_some]
    refine ⟨fun d k hd => ?_, fun d hd => ?_⟩
    · have h1 := exponent_le h0 hl hd
      refine Decidable.byContradiction fun hlt => ?_
      obtain ⟨d0, hd0, _, _⟩ := decimalAt_of hv hd
      have := hbefore (exponentAbove v - k).toNat (hmem _ (by omega))
      rw [show exponentAbove v - ((exponentAbove v - k).toNat : Int) = k by omega, hd0] at this
      cases this
    · obtain ⟨d0, h1, h2, h3⟩ := decimalAt_of hv hd
      rw [hk, hi] at h1
      rw [← hk] at h1
      have : r.1 = d0 := by rw [Option.some.inj h1]
      rw [this]
      exact h3

/-- The digits that are printed are the fewest. -/
theorem shortest_digits {v : Nat} (hv : IsFloat v) (h0 : v ≠ 0) (hl : v < f64Limit) {n : Nat} {e : Int} (h : f64OfDecimal n e = v) {m : Nat}
    (hm : Significant n m) : (shortest v).1 < 10 ^ m := by
  obtain ⟨d, j, rfl, hd⟩ := hm
  rw [f64OfDecimal_shift] at h
  obtain ⟨hmax, _⟩ := shortest_spec hv h0 hl
  have hread := shortest_reads hv
  have hk := hmax _ _ h
  refine Decidable.byContradiction fun hge => ?_
  have hge : 10 ^ m ≤ (shortest v).1 := by omega
  generalize (shortest v).1 = d0 at *
  generalize (shortest v).2 = k0 at *
  generalize e + (j : Int) = k at *
  have h1 : f64OfDecimal (10 ^ m) k0 ≤ v := by rw [← hread]; exact ofDecimal_mono_left hge k0
  have h2 : v ≤ f64OfDecimal (10 ^ m) k0 := by
    have e1 := f64OfDecimal_shift (10 ^ m) (k0 - k).toNat k
    rw [show k + ((k0 - k).toNat : Int) = k0 by omega] at e1
    rw [← e1, ← h]
    refine ofDecimal_mono_left (Nat.le_of_lt (Nat.lt_of_lt_of_le hd ?_)) k
    exact Nat.le_mul_of_pos_right _ (Nat.pow_pos (by decide))
  have h3 : f64OfDecimal 1 (k0 + (m : Int)) = v := by
    have e2 := f64OfDecimal_shift 1 m k0
    rw [Nat.one_mul] at e2
    rw [← e2]
    omega
  have h4 := hmax _ _ h3
  have : m = 0 := by omega
  subst this
  have : d = 0 := by simpa using hd
  subst this
  rw [f64OfDecimal_zero] at h
  exact h0 h.symm

/-! ## The grammar of floats -/

theorem splitSign_iff {s x : Str} {b : Bool} : splitSign s = (b, x) ↔
    s = '-' :: x ∧ b = true ∨ s = '+' :: x ∧ b = false ∨ s = x ∧ b = false ∧ x.head? ≠ some '-' ∧ x.head? ≠ some '+' := by
  unfold splitSign
  split
  · constructor
    · intro h; cases h; exact .inl ⟨rfl, rfl⟩
    · rintro (⟨h, rfl⟩ | ⟨h, rfl⟩ | ⟨h, rfl, h1, h2⟩)
      · cases h; rfl
      · cases h
      · subst h; exact absurd rfl h1
  · constructor
    · intro h; cases h; exact .inr (.inl ⟨rfl, rfl⟩)
    · rintro (⟨h, rfl⟩ | ⟨h, rfl⟩ | ⟨h, rfl, h1, h2⟩)
      · cases h
      · cases h; rfl
      · subst h; exact absurd rfl h2
  · rename_i h1 h2
    constructor
    · intro h
      cases h
      refine .inr (.inr ⟨rfl, rfl, fun h => ?_, fun h => ?_⟩)
      · cases s with
        | nil => cases h
        | cons c r => cases h; exact h1 r rfl
      · cases s with
        | nil => cases h
        | cons c r => cases h; exact h2 r rfl
    · rintro (⟨h, rfl⟩ | ⟨h, rfl⟩ | ⟨h, rfl, _, _⟩)
      · exact absurd h (h1 _)
      · exact absurd h (h2 _)
      · rw [h]

theorem floatExponent_iff {x : Str} {i : Int} : floatExponent x = some i ↔ ExponentText x i := by
  unfold ExponentText
  constructor
  · intro h
    cases x with
    | nil => cases h; exact .inl ⟨rfl, rfl⟩
    | cons c r =>
      right
      simp only [floatExponent] at h
      split at h
      · rename_i hc
        obtain ⟨n, hn, rfl⟩ := Option.map_eq_some_iff.1 h
        have hd := Props.decimal_iff.2 hn
        have hs : splitSign r = ((splitSign r).1, (splitSign r).2) := rfl
        generalize (splitSign r).1 = b at *
        generalize (splitSign r).2 = es at *
        refine ⟨c, es, n, hc, hd, ?_⟩
        rcases splitSign_iff.1 hs with ⟨rfl, rfl⟩ | ⟨rfl, rfl⟩ | ⟨rfl, rfl, _⟩
        · exact .inr (.inr ⟨rfl, rfl⟩)
        · exact .inr (.inl ⟨rfl, rfl⟩)
        · exact .inl ⟨rfl, rfl⟩
      · cases h
  · rintro (⟨rfl, rfl⟩ | ⟨c, es, a, hc, hd, h⟩)
    · rfl
    · have hp := Props.decimal_iff.1 hd
      obtain ⟨_, ha⟩ := digits_iff.1 ⟨_, hd⟩
      rcases h with ⟨rfl, rfl⟩ | ⟨rfl, rfl⟩ | ⟨rfl, rfl⟩
      · exact floatExponent_e hc (splitSign_digits ha) hp
      · exact floatExponent_e hc (b := false) (ds := es) rfl hp
      · exact floatExponent_e hc (b := true) (ds := es) rfl hp

theorem exponentText_head {x : Str} {i : Int} (h : ExponentText x i) : NoDigit x ∧ x.head? ≠ some '.' := by
  rcases h with ⟨rfl, rfl⟩ | ⟨c, es, a, hc, _, h⟩
  · exact end_nil
  · have hnd : ∀ r, NoDigit (c :: r) ∧ (c :: r).head? ≠ some '.' := by
      intro r
      rcases hc with rfl | rfl
      · exact ⟨noDigit_of_head (by decide) r, by simp⟩
      · exact ⟨noDigit_of_head (by decide) r, by simp⟩
    rcases h with ⟨rfl, rfl⟩ | ⟨rfl, rfl⟩ | ⟨rfl, rfl⟩ <;> exact hnd _

theorem scanDigits_parts (s : Str) : s = (scanDigits s).1 ++ (scanDigits s).2 ∧ AllDigits (scanDigits s).1 ∧ NoDigit (scanDigits s).2 := by
  unfold scanDigits
  refine ⟨(List.takeWhile_append_dropWhile).symm, ?_, ?_⟩
  · intro c hc
    exact List.all_eq_true.1 List.all_takeWhile c hc
  · intro c hc
    have := List.head?_dropWhile_not Char.isDigit s
    rw [hc] at this
    simpa using this

theorem floatDecimal_iff {x : Str} {n : Nat} {e : Int} : floatDecimal x = some (n, e) ↔ NumberText x n e := by
  constructor
  · intro h
    unfold floatDecimal at h
    simp only at h
    obtain ⟨h1, h2, h3⟩ := scanDigits_parts x
    generalize (scanDigits x).1 = ds at *
    generalize (scanDigits x).2 = r at *
    split at h
    · cases h
    rename_i hne
    obtain ⟨i, hi, he⟩ := Option.map_eq_some_iff.1 h
    cases he
    have hcases : (∃ r', r = '.' :: r' ∧ pointDigits r = scanDigits r') ∨ pointDigits r = ([], r) := by
      unfold pointDigits
      split
      · exact .inl ⟨_, rfl, rfl⟩
      · exact .inr rfl
    rcases hcases with ⟨r', rfl, hp⟩ | hp
    · rw [hp] at hi hne ⊢
      obtain ⟨g1, g2, g3⟩ := scanDigits_parts r'
      generalize (scanDigits r').1 = fs at *
      generalize (scanDigits r').2 = ex at *
      refine ⟨ds, fs, ex, i, decimal_of_digits (digits_iff.2 ⟨?_, h2.append g2⟩), floatExponent_iff.1 hi, rfl, .inl ?_⟩
      · intro hnil
        exact hne (List.append_eq_nil_iff.1 hnil)
      · rw [h1, g1]; simp
    · rw [hp] at hi hne ⊢
      refine ⟨ds, [], r, i, decimal_of_digits (digits_iff.2 ⟨?_, ?_⟩), floatExponent_iff.1 hi, rfl, .inr ⟨rfl, h1⟩⟩
      · intro hnil
        exact hne (List.append_eq_nil_iff.1 hnil)
      · rw [List.append_nil]; exact h2
  · rintro ⟨ds, fs, ex, i, hd, hx, rfl, h⟩
    obtain ⟨hne, ha⟩ := digits_iff.1 ⟨_, hd⟩
    have hds : AllDigits ds := fun c hc => ha c (List.mem_append.2 (.inl hc))
    have hfs : AllDigits fs := fun c hc => ha c (List.mem_append.2 (.inr hc))
    obtain ⟨hx1, hx2⟩ := exponentText_head hx
    have hx3 := floatExponent_iff.2 hx
    have hv := decimal_value hd
    unfold floatDecimal
    rcases h with rfl | ⟨rfl, rfl⟩
    · have hx' : NoDigit ('.' :: (fs ++ ex)) := by intro c hc; cases hc; decide
      have e1 : scanDigits (ds ++ '.' :: fs ++ ex) = (ds, '.' :: (fs ++ ex)) := by
        rw [List.append_assoc]; exact scanDigits_append hds hx'
      have e2 : pointDigits ('.' :: (fs ++ ex)) = (fs, ex) := scanDigits_append hfs hx1
      simp only [e1, e2, hx3, Option.map_some, ← hv]
      rw [if_neg]
      rintro ⟨rfl, rfl⟩
      exact hne rfl
    · rw [List.append_nil] at hv hne
      simp only [scanDigits_append hds hx1, pointDigits_none hx2, hx3, Option.map_some, List.append_nil, ← hv]
      rw [if_neg]
      rintro ⟨rfl, _⟩
      exact hne rfl

/-- A number does not begin with a sign, and is none of the words. -/
theorem numberText_head {x : Str} {n : Nat} {e : Int} (h : NumberText x n e) : ∃ c r, x = c :: r ∧ (c.isDigit = true ∨ c = '.') := by
  obtain ⟨ds, fs, ex, i, hd, _, _, h⟩ := h
  obtain ⟨hne, ha⟩ := digits_iff.1 ⟨_, hd⟩
  cases ds with
  | nil =>
    rcases h with rfl | ⟨rfl, _⟩
    · exact ⟨'.', fs ++ ex, by simp, .inr rfl⟩
    · exact absurd rfl hne
  | cons c r =>
    rcases h with rfl | ⟨rfl, rfl⟩
    · exact ⟨c, r ++ '.' :: fs ++ ex, by simp, .inl (ha c (by simp))⟩
    · exact ⟨c, r ++ ex, by simp, .inl (ha c (by simp))⟩

theorem toLower_ne {c d : Char} (h : c.isDigit = true ∨ c = '.') (hd : d.isDigit = false ∧ d ≠ '.') : c.toLower ≠ d := by
  rcases h with h | rfl
  · rw [toLower_digit h]
    rintro rfl
    rw [h] at hd
    cases hd.1
  · intro he
    exact hd.2 (he ▸ rfl)

theorem sign_parts {sign x : Str} {b : Bool} (h : SignOf sign b) (hx : x.head? ≠ some '-' ∧ x.head? ≠ some '+') :
    splitSign (sign ++ x) = (b, x) := by
  rw [splitSign_iff]
  rcases h with ⟨rfl, rfl⟩ | ⟨rfl, rfl⟩ | ⟨rfl, rfl⟩
  · exact .inr (.inr ⟨rfl, rfl, hx⟩)
  · exact .inr (.inl ⟨rfl, rfl⟩)
  · exact .inl ⟨rfl, rfl⟩

theorem floatText_iff {s : Str} {f : F64} : F64.parse s = some f ↔ FloatText s f := by
  unfold FloatText
  rw [← f64Limit_eq]
  constructor
  · intro h
    have hs : splitSign s = ((splitSign s).1, (splitSign s).2) := rfl
    unfold F64.parse at h
    generalize (splitSign s).1 = b at *
    generalize (splitSign s).2 = x at *
    have hsign : ∃ sign, SignOf sign b ∧ s = sign ++ x := by
      rcases splitSign_iff.1 hs with ⟨rfl, rfl⟩ | ⟨rfl, rfl⟩ | ⟨rfl, rfl, _⟩
      · exact ⟨['-'], .inr (.inr ⟨rfl, rfl⟩), rfl⟩
      · exact ⟨['+'], .inr (.inl ⟨rfl, rfl⟩), rfl⟩
      · exact ⟨[], .inl ⟨rfl, rfl⟩, rfl⟩
    obtain ⟨sign, h1, h2⟩ := hsign
    refine ⟨sign, b, x, h1, h2, ?_⟩
    simp only at h
    split at h
    · cases h; exact .inl ⟨by assumption, rfl⟩
    split at h
    · cases h; exact .inr (.inl ⟨by assumption, rfl⟩)
    obtain ⟨⟨n, e⟩, hd, hf⟩ := Option.map_eq_some_iff.1 h
    refine .inr (.inr ⟨n, e, f64OfDecimal n e, floatDecimal_iff.1 hd, nearestDecimal_iff.2 rfl, ?_⟩)
    unfold F64.ofRounded at hf
    simp only at hf
    split at hf
    · exact .inl ⟨by assumption, hf.symm⟩
    · exact .inr ⟨by omega, hf.symm⟩
  · rintro ⟨sign, b, x, hs, rfl, h⟩
    have hlow : ∀ {w : Str} {c : Char}, x.map Char.toLower = w → w.head? ≠ some c → c.toLower = c → x.head? ≠ some c := by
      intro w c hw hc hl he
      cases x with
      | nil => cases he
      | cons d r =>
        cases he
        rw [← hw] at hc
        exact hc (by simp [hl])
    have hhead : x.head? ≠ some '-' ∧ x.head? ≠ some '+' := by
      rcases h with ⟨h | h, _⟩ | ⟨h, _⟩ | ⟨n, e, v, h, _⟩
      · exact ⟨hlow h (by decide) (by decide), hlow h (by decide) (by decide)⟩
      · exact ⟨hlow h (by decide) (by decide), hlow h (by decide) (by decide)⟩
      · exact ⟨hlow h (by decide) (by decide), hlow h (by decide) (by decide)⟩
      · obtain ⟨c, r, rfl, hc⟩ := numberText_head h
        constructor
        · intro he; cases he; revert hc; decide
        · intro he; cases he; revert hc; decide
    unfold F64.parse
    rw [sign_parts hs hhead]
    simp only
    rcases h with ⟨h, rfl⟩ | ⟨h, rfl⟩ | ⟨n, e, v, h, hv, hf⟩
    · rw [if_pos h]
    · rw [if_neg (by rw [h]; decide), if_pos h]
    · obtain ⟨c, r, rfl, hc⟩ := numberText_head h
      have hw : ∀ (d : Char) (w : Str), d.isDigit = false ∧ d ≠ '.' → (c :: r).map Char.toLower ≠ d :: w := by
        intro d w hd he
        exact toLower_ne hc hd (List.cons.inj he).1
      rw [if_neg (by
        rintro (h | h)
        · exact hw _ _ (by decide) h
        · exact hw _ _ (by decide) h), if_neg (hw _ _ (by decide)), floatDecimal_iff.2 h]
      rw [nearestDecimal_iff] at hv
      subst hv
      simp only [Option.map_some, F64.ofRounded]
      rcases hf with ⟨h1, rfl⟩ | ⟨h1, rfl⟩
      · rw [if_pos h1]
      · rw [if_neg (by omega)]

/-- What stands for the shortest decimal is one. -/
theorem shortest_decimal {v : Nat} (h : InRange (.finite neg v)) (h0 : v ≠ 0) {x : Str} (hx : Stands x (shortest v).1 (shortest v).2) :
    ∃ n e, DecimalText x n e ∧ ShortestDecimal v n e := by
  obtain ⟨hv, hl⟩ := inRange_finite.1 h
  obtain ⟨_, hc⟩ := shortest_spec hv h0 hl
  have hr := shortest_reads hv
  obtain ⟨ds, fs, ex, i, h1, h2, h3, h4, _, h6, j, h7, h8⟩ := hx.parts
  refine ⟨_, _, ⟨ds, fs, ex, i, digits_of h1 h2, decimal_of_digits (digits_of (h1.append h3) (by simp [h2])), rfl, floatExponent_iff.1 h4, h6⟩, ?_, ?_, ?_⟩
  · rw [nearestDecimal_iff, h7, f64OfDecimal_shift, ← h8, hr]
  · intro n' e' m hn hm
    rw [nearestDecimal_iff] at hn
    exact ⟨_, _, h7, shortest_digits hv h0 hl hn.symm hm⟩
  · refine ⟨_, _, h7, ?_⟩
    rw [← h8]
    intro d' hd'
    rw [nearestDecimal_iff] at hd'
    have := hc d' hd'.symm
    rwa [f64One_eq] at this

end Rops
