import Verif.Model.Document
import Verif.Spec.Syntax
import Verif.Spec.Document
/-! Lemmas about decimal numbers in texts. -/

namespace Rops
open Spec

theorem digit_eq (n : Nat) : digit n = Char.ofNat (48 + n % 10) := by
  have : ∀ d, d < 10 → Nat.digitChar d = Char.ofNat (48 + d) := by decide
  exact this _ (Nat.mod_lt _ (by decide))

theorem decimal_pad2 {n : Nat} (h : n < 100) : Decimal (pad2 n) n := by
  have := (Decimal.digit (n / 10 % 10) (by omega)).more (n % 10) (by omega)
  unfold pad2
  rw [digit_eq, digit_eq]
  rw [show 10 * (n / 10 % 10) + n % 10 = n by omega] at this
  exact this

theorem decimal_pad4 {n : Nat} (h : n < 10000) : Decimal (pad4 n) n := by
  have := (((Decimal.digit (n / 1000 % 10) (by omega)).more (n / 100 % 10) (by omega)).more (n / 10 % 10) (by omega)).more
    (n % 10) (by omega)
  unfold pad4
  rw [digit_eq, digit_eq, digit_eq, digit_eq]
  rw [show 10 * (10 * (10 * (n / 1000 % 10) + n / 100 % 10) + n / 10 % 10) + n % 10 = n by omega] at this
  exact this

theorem decimal_unique {s s' : Str} {n : Nat} (h : Decimal s n) (h' : Decimal s' n) (hl : s.length = s'.length) : s = s' := by
  induction h generalizing s' with
  | digit d hd =>
    cases h' with
    | digit d' hd' => rfl
    | @more s n d' h' hd' =>
      cases h' <;> simp at hl
  | @more s n d h hd ih =>
    generalize hk : 10 * n + d = k at h'
    cases h' with
    | digit d' hd' => cases h <;> simp at hl
    | @more s' n' d' h' hd' =>
      have h1 : n = n' := by omega
      have h2 : d = d' := by omega
      subst h1 h2
      rw [ih h' (by simpa using hl)]

theorem padDigits_length (w n : Nat) : (padDigits w n).length = w := by
  induction w generalizing n with
  | zero => rfl
  | succ w ih => simp [padDigits, ih]

theorem decimal_padDigits (w : Nat) {n : Nat} (h : n < 10 ^ (w + 1)) : Decimal (padDigits (w + 1) n) n := by
  induction w generalizing n with
  | zero =>
    have := Decimal.digit n (by omega)
    simp only [padDigits, List.nil_append]
    rw [digit_eq, Nat.mod_eq_of_lt (by omega)]
    exact this
  | succ w ih =>
    have := (ih (n := n / 10) (by rw [Nat.div_lt_iff_lt_mul (by omega)]; rw [Nat.pow_succ] at h; omega)).more (n % 10) (by omega)
    rw [padDigits, digit_eq]
    rw [show 10 * (n / 10) + n % 10 = n by omega] at this
    exact this

theorem Spec.Calendar.valid {t : Timestamp} (h : Calendar t) : t.Valid where
  month := by have := h.month; omega
  day := by
    have h1 := h.day.2
    have : daysInMonth t.year t.month ≤ 31 := by
      unfold daysInMonth
      repeat' split
      all_goals omega
    omega
  hour := by have := h.hour; omega
  minute := by have := h.minute; omega
  second := by have := h.second; omega

theorem decimal_toDigits (n : Nat) : Decimal (Nat.toDigits 10 n) n := by
  induction n using Nat.strongRecOn with
  | ind n ih =>
    by_cases hn : n < 10
    · rw [Nat.toDigits_of_lt_base hn]
      have := Decimal.digit n hn
      rwa [show Char.ofNat (48 + n) = Nat.digitChar n by
        have := digit_eq n
        rw [Nat.mod_eq_of_lt hn] at this
        rw [← this, digit, Nat.mod_eq_of_lt hn]] at this
    · rw [Nat.toDigits_of_base_le (by omega) (by omega)]
      have := (ih (n / 10) (by omega)).more (n % 10) (by omega)
      rw [← digit_eq, show 10 * (n / 10) + n % 10 = n by omega] at this
      exact this

theorem decimal_lt {s : Str} {n : Nat} (h : Decimal s n) : n < 10 ^ s.length := by
  induction h with
  | digit d hd => simpa using hd
  | more d h hd ih =>
    rw [List.length_append, List.length_singleton, Nat.pow_succ]
    omega

theorem decimal_ge {s : Str} {n : Nat} (h : Decimal s n) (h0 : s.head? ≠ some '0') : 10 ^ (s.length - 1) ≤ n := by
  induction h with
  | digit d hd =>
    rcases Nat.eq_zero_or_pos d with rfl | hp
    · exact absurd rfl h0
    · show 1 ≤ d
      omega
  | @more s n d h hd ih =>
    have hne : s ≠ [] := by cases h <;> simp
    have hl : 0 < s.length := List.length_pos_iff.2 hne
    have := ih (by
      intro e
      rw [List.head?_append, e] at h0
      exact h0 rfl)
    rw [List.length_append, List.length_singleton, Nat.add_sub_cancel,
      show s.length = s.length - 1 + 1 by omega, Nat.pow_succ]
    omega

theorem toDigits_head {n : Nat} (h : n ≠ 0) : (Nat.toDigits 10 n).head? ≠ some '0' := by
  induction n using Nat.strongRecOn with
  | ind n ih =>
    by_cases hn : n < 10
    · have : ∀ n, n < 10 → n ≠ 0 → (Nat.toDigits 10 n).head? ≠ some '0' := by decide
      exact this n hn h
    · rw [Nat.toDigits_of_base_le (by omega) (by omega), List.head?_append]
      have h1 := ih (n / 10) (by omega) (by omega)
      cases e : Nat.toDigits 10 (n / 10) with
      | nil =>
        have := decimal_lt (decimal_toDigits (n / 10))
        rw [e] at this
        simp at this
        omega
      | cons c r =>
        rw [e] at h1
        exact h1

/-- Digits of a number, at least four. -/
theorem fourDigits {n : Nat} : ∃ ds, ds = (if n < 10000 then pad4 n else Nat.toDigits 10 n) ∧ Decimal ds n ∧
    (ds.length = 4 ∧ n < 10000 ∨ 4 < ds.length ∧ ds.head? ≠ some '0' ∧ 10000 ≤ n) := by
  by_cases hn : n < 10000
  · exact ⟨_, rfl, by rw [if_pos hn]; exact decimal_pad4 hn, .inl ⟨by rw [if_pos hn]; rfl, hn⟩⟩
  · refine ⟨_, rfl, by rw [if_neg hn]; exact decimal_toDigits n, .inr ⟨?_, ?_, by omega⟩⟩
    · rw [if_neg hn]
      have h1 := decimal_lt (decimal_toDigits n)
      rcases Nat.lt_or_ge 4 (Nat.toDigits 10 n).length with h2 | h2
      · exact h2
      · have := Nat.pow_le_pow_right (n := 10) (by omega) h2
        omega
    · rw [if_neg hn]
      exact toDigits_head (by omega)

theorem fourDigits_unique {s s' : Str} {n : Nat} (h : Decimal s n) (h' : Decimal s' n)
    (hs : s.length = 4 ∨ 4 < s.length ∧ s.head? ≠ some '0') (hs' : s'.length = 4 ∨ 4 < s'.length ∧ s'.head? ≠ some '0') : s = s' := by
  refine decimal_unique h h' ?_
  have key : ∀ {s s' : Str}, Decimal s n → Decimal s' n → 4 < s.length → s.head? ≠ some '0' → s.length ≤ s'.length := by
    intro s s' h h' hl h0
    have h1 := decimal_ge h h0
    have h2 := decimal_lt h'
    rcases Nat.lt_or_ge s'.length s.length with h3 | h3
    · have := Nat.pow_le_pow_right (n := 10) (by omega) (show s'.length ≤ s.length - 1 by omega)
      omega
    · exact h3
  rcases hs with hs | ⟨hs, hz⟩ <;> rcases hs' with hs' | ⟨hs', hz'⟩
  · omega
  · have := key h' h hs' hz'; omega
  · have := key h h' hs hz; omega
  · have := key h' h hs' hz'; have := key h h' hs hz; omega

theorem writtenYear_iff {y : Int} {s : Str} : WrittenYear s y ↔ s = yearText y := by
  have hds := fourDigits (n := y.natAbs)
  obtain ⟨es, he, hde, hle⟩ := hds
  constructor
  · rintro ⟨ds, n, hd, hl, h⟩
    have hlt := decimal_lt hd
    unfold yearText
    rcases h with ⟨rfl, h4, hy⟩ | ⟨rfl, h4, hy⟩ | ⟨rfl, h0, hy⟩
    · rw [h4] at hlt
      rw [if_pos (by omega), show y.toNat = n by omega]
      exact decimal_unique hd (decimal_pad4 (by omega)) h4
    · have hz : ds.head? ≠ some '0' := by
        rcases hl with hl | hl
        · omega
        · exact hl.2
      have h1 := decimal_ge hd hz
      have := Nat.pow_le_pow_right (n := 10) (by omega) (show 4 ≤ ds.length - 1 by omega)
      rw [if_neg (by omega), if_neg (by omega)]
      rw [show y.natAbs = n by omega] at *
      rw [← he, fourDigits_unique hd hde hl (by rcases hle with h | h <;> simp [h])]
    · rw [if_neg (by omega), if_pos (by omega)]
      rw [show y.natAbs = n by omega] at *
      rw [← he, fourDigits_unique hd hde hl (by rcases hle with h | h <;> simp [h])]
  · rintro rfl
    refine ⟨es, y.natAbs, hde, by rcases hle with h | h <;> simp [h], ?_⟩
    unfold yearText
    by_cases hy : 0 ≤ y ∧ y < 10000
    · rw [if_pos hy]
      rw [if_pos (by omega)] at he
      exact .inl ⟨by rw [he, show y.natAbs = y.toNat by omega], by rw [he]; rfl, by omega⟩
    · rw [if_neg hy, ← he]
      by_cases hn : y < 0
      · rw [if_pos hn]
        exact .inr (.inr ⟨rfl, by omega, by omega⟩)
      · rw [if_neg hn]
        exact .inr (.inl ⟨rfl, by rcases hle with h | h <;> omega, by omega⟩)

theorem dateText_iff {t : Timestamp} (ht : t.Valid) {s : Str} : DateText t s ↔ s = t.toText := by
  constructor
  · rintro ⟨y, mo, d, h, mi, sec, rfl, h1, ⟨h2, l2⟩, ⟨h3, l3⟩, ⟨h4, l4⟩, ⟨h5, l5⟩, ⟨h6, l6⟩⟩
    unfold Timestamp.toText
    rw [writtenYear_iff.1 h1, decimal_unique h2 (decimal_pad2 ht.month) l2,
      decimal_unique h3 (decimal_pad2 ht.day) l3, decimal_unique h4 (decimal_pad2 ht.hour) l4,
      decimal_unique h5 (decimal_pad2 ht.minute) l5, decimal_unique h6 (decimal_pad2 ht.second) l6]
  · rintro rfl
    exact ⟨_, _, _, _, _, _, rfl, writtenYear_iff.2 rfl, ⟨decimal_pad2 ht.month, rfl⟩,
      ⟨decimal_pad2 ht.day, rfl⟩, ⟨decimal_pad2 ht.hour, rfl⟩, ⟨decimal_pad2 ht.minute, rfl⟩, ⟨decimal_pad2 ht.second, rfl⟩⟩

end Rops
