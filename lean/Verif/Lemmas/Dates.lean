import Verif.Model.Dates
import Verif.Spec.Dates
import Verif.Lemmas.Decimals
/-! Lemmas about the reading of dates. -/

namespace Rops
open Spec

/-! ## Pieces -/

/-- The text does not begin with such a character. -/
def NotBegins (p : Char → Bool) (s : Str) : Prop := ∀ c ∈ s.head?, p c = false

theorem begins_nil (p : Char → Bool) : NotBegins p [] := by intro c h; cases h

theorem begins_cons {p : Char → Bool} {c : Char} {s : Str} : NotBegins p (c :: s) ↔ p c = false := by
  simp [NotBegins]

theorem dropWhile_begins {p : Char → Bool} {s : Str} (h : NotBegins p s) : s.dropWhile p = s := by
  cases s with
  | nil => rfl
  | cons c s => simp [begins_cons.1 h]

theorem begins_dropWhile (p : Char → Bool) (s : Str) : NotBegins p (s.dropWhile p) := by
  induction s with
  | nil => exact begins_nil p
  | cons c s ih =>
    rw [List.dropWhile_cons]
    split
    · exact ih
    · rename_i h
      exact begins_cons.2 (by simpa using h)

theorem dropWhile_append_begins {p : Char → Bool} {w s : Str} (hw : ∀ c ∈ w, p c = true) (h : NotBegins p s) :
    (w ++ s).dropWhile p = s := by
  induction w with
  | nil => exact dropWhile_begins h
  | cons c w ih =>
    rw [List.cons_append, List.dropWhile_cons, if_pos (hw c (by simp))]
    exact ih fun d hd => hw d (by simp [hd])

theorem takeWhile_append_begins {p : Char → Bool} {w s : Str} (hw : ∀ c ∈ w, p c = true) (h : NotBegins p s) :
    (w ++ s).takeWhile p = w := by
  induction w with
  | nil =>
    cases s with
    | nil => rfl
    | cons c s => simp [begins_cons.1 h]
  | cons c w ih =>
    rw [List.cons_append, List.takeWhile_cons, if_pos (hw c (by simp)), ih fun d hd => hw d (by simp [hd])]

theorem trimStart_append {w s : Str} (hw : Blank w) (h : NotBegins isWhitespace s) : trimStart (w ++ s) = s :=
  dropWhile_append_begins hw h

theorem trimStart_split (s : Str) : ∃ w, Blank w ∧ s = w ++ trimStart s ∧ NotBegins isWhitespace (trimStart s) := by
  refine ⟨s.takeWhile isWhitespace, ?_, (List.takeWhile_append_dropWhile).symm, begins_dropWhile _ _⟩
  intro c hc
  exact List.all_eq_true.1 (List.all_takeWhile) c hc

/-- A digit is a character that is none of the others. -/
theorem digit_not_blank {c : Char} (h : isDigit c = true) : isWhitespace c = false := by
  simp only [isDigit, Bool.and_eq_true, decide_eq_true_eq] at h
  unfold isWhitespace
  simp only [Bool.or_eq_false_iff, Bool.and_eq_false_iff, beq_eq_false_iff_ne, decide_eq_false_iff_not]
  omega

theorem blank_not_digit {c : Char} (h : isWhitespace c = true) : isDigit c = false := by
  cases hd : isDigit c with
  | false => rfl
  | true => rw [digit_not_blank hd] at h; cases h

theorem isDigit_ofNat {d : Nat} (h : d < 10) : isDigit (Char.ofNat (48 + d)) = true ∧ (Char.ofNat (48 + d)).toNat - 48 = d := by
  have : ∀ d < 10, isDigit (Char.ofNat (48 + d)) = true ∧ (Char.ofNat (48 + d)).toNat - 48 = d := by decide
  exact this d h

theorem digit_ofNat {c : Char} (h : isDigit c = true) : c = Char.ofNat (48 + (c.toNat - 48)) ∧ c.toNat - 48 < 10 := by
  simp only [isDigit, Bool.and_eq_true, decide_eq_true_eq] at h
  refine ⟨?_, by omega⟩
  rw [show 48 + (c.toNat - 48) = c.toNat by omega, Char.ofNat_toNat]

theorem digitsValue_append (s : Str) (c : Char) : digitsValue (s ++ [c]) = 10 * digitsValue s + (c.toNat - 48) := by
  simp [digitsValue]

theorem decimal_digits_iff {s : Str} {n : Nat} : Decimal s n ↔ s ≠ [] ∧ (∀ c ∈ s, isDigit c = true) ∧ digitsValue s = n := by
  constructor
  · intro h
    induction h with
    | digit d hd =>
      have := isDigit_ofNat hd
      refine ⟨by simp, by simpa using this.1, ?_⟩
      simp [digitsValue, this.2]
    | more d _ hd ih =>
      have := isDigit_ofNat hd
      refine ⟨by simp, ?_, ?_⟩
      · intro c hc
        rcases List.mem_append.1 hc with hc | hc
        · exact ih.2.1 c hc
        · rw [List.mem_singleton.1 hc]; exact this.1
      · rw [digitsValue_append, ih.2.2, this.2]
  · rintro ⟨hne, hd, rfl⟩
    obtain ⟨k, hk⟩ : ∃ k, s.length = k := ⟨_, rfl⟩
    induction k generalizing s with
    | zero => exact absurd (List.length_eq_zero_iff.1 hk) hne
    | succ k ih =>
      obtain ⟨l, c, rfl⟩ : ∃ l c, s = l ++ [c] := ⟨_, _, (List.dropLast_concat_getLast hne).symm⟩
      obtain ⟨e, hlt⟩ := digit_ofNat (hd c (by simp))
      rw [digitsValue_append, e]
      have e2 : (Char.ofNat (48 + (c.toNat - 48))).toNat - 48 = c.toNat - 48 := (isDigit_ofNat hlt).2
      rw [e2]
      by_cases hl : l = []
      · subst hl
        simpa [digitsValue] using Decimal.digit _ hlt
      · exact (ih hl (fun c hc => hd c (by simp [hc])) (by simpa using hk)).more _ hlt

theorem decimal_head {s r : Str} {n : Nat} (h : Decimal s n) : ∃ c t, s ++ r = c :: t ∧ isDigit c = true := by
  obtain ⟨h1, h2, _⟩ := decimal_digits_iff.1 h
  cases s with
  | nil => exact absurd rfl h1
  | cons c s => exact ⟨c, s ++ r, rfl, h2 c (by simp)⟩

theorem scanNumber_some {max : Nat} {s r : Str} {n : Nat} (h : scanNumber max s = some (n, r)) :
    ∃ ds, Decimal ds n ∧ ds.length ≤ max ∧ s = ds ++ r := by
  unfold scanNumber at h
  have hl := (List.takeWhile_prefix (p := isDigit) (l := s.take max)).length_le
  have hd : ∀ c ∈ (s.take max).takeWhile isDigit, isDigit c = true := fun c hc => List.all_eq_true.1 List.all_takeWhile c hc
  obtain ⟨t, ht⟩ : (s.take max).takeWhile isDigit <+: s := (List.takeWhile_prefix _).trans (List.take_prefix _ _)
  generalize (s.take max).takeWhile isDigit = ds at h hl hd ht
  cases ds with
  | nil => cases h
  | cons c ds =>
    cases h
    subst ht
    refine ⟨c :: ds, decimal_digits_iff.2 ⟨by simp, hd, rfl⟩, ?_, by simp⟩
    simp only [List.length_take] at hl
    omega

theorem digits_taken {max : Nat} {ds r : Str} {n : Nat} (h : Decimal ds n) (hl : ds.length ≤ max)
    (hs : ds.length = max ∨ NotBegins isDigit r) : ((ds ++ r).take max).takeWhile isDigit = ds := by
  obtain ⟨h1, h2, h3⟩ := decimal_digits_iff.1 h
  rw [List.take_append, List.take_of_length_le hl]
  refine takeWhile_append_begins h2 ?_
  rcases hs with hs | hs
  · rw [hs, Nat.sub_self, List.take_zero]
    exact begins_nil _
  · intro c hc
    cases r with
    | nil => simp at hc
    | cons d r =>
      cases hm : max - ds.length with
      | zero => rw [hm] at hc; simp at hc
      | succ k =>
        rw [hm] at hc
        simp only [List.take_succ_cons, List.head?_cons, Option.mem_some_iff] at hc
        exact hs c (by simp [hc])

theorem scanNumber_of {max : Nat} {ds r : Str} {n : Nat} (h : Decimal ds n) (hl : ds.length ≤ max)
    (hs : ds.length = max ∨ NotBegins isDigit r) : scanNumber max (ds ++ r) = some (n, r) := by
  obtain ⟨h1, h2, h3⟩ := decimal_digits_iff.1 h
  unfold scanNumber
  rw [digits_taken h hl hs]
  split
  · contradiction
  · simp [h3]

theorem scanYear_some {s r : Str} {y : Int} (h : scanYear s = some (y, r)) :
    ∃ w t, Blank w ∧ YearText t y ∧ s = w ++ (t ++ r) := by
  obtain ⟨w, hw, hs, _⟩ := trimStart_split s
  unfold scanYear at h
  split at h
  · rename_i r' hr
    cases hn : scanNumber r'.length r' with
    | none => rw [hn] at h; cases h
    | some p =>
      rw [hn] at h; cases h
      obtain ⟨ds, h1, h2, h3⟩ := scanNumber_some hn
      exact ⟨w, '-' :: ds, hw, .minus h1, by rw [hs, hr, h3]; rfl⟩
  · rename_i r' hr
    cases hn : scanNumber r'.length r' with
    | none => rw [hn] at h; cases h
    | some p =>
      rw [hn] at h; cases h
      obtain ⟨ds, h1, h2, h3⟩ := scanNumber_some hn
      exact ⟨w, '+' :: ds, hw, .plus h1, by rw [hs, hr, h3]; rfl⟩
  · cases hn : scanNumber 4 (trimStart s) with
    | none => rw [hn] at h; cases h
    | some p =>
      rw [hn] at h; cases h
      obtain ⟨ds, h1, h2, h3⟩ := scanNumber_some hn
      exact ⟨w, ds, hw, .plain h1 h2, by rw [hs, h3]⟩

theorem scanYear_of {w t r : Str} {y : Int} (hw : Blank w) (h : YearText t y) (hr : NotBegins isDigit r) :
    scanYear (w ++ (t ++ r)) = some (y, r) := by
  cases h with
  | plain h hl =>
    obtain ⟨c, t', e, hc⟩ := decimal_head (r := r) h
    have ht : trimStart (w ++ (t ++ r)) = t ++ r := trimStart_append hw (by rw [e]; exact begins_cons.2 (digit_not_blank hc))
    unfold scanYear
    rw [ht]
    split
    · rename_i he
      rw [he] at e
      cases e
      simp [isDigit] at hc
    · rename_i he
      rw [he] at e
      cases e
      simp [isDigit] at hc
    · rw [scanNumber_of h hl (.inr hr)]
      rfl
  | plus h =>
    rename_i ds n
    have ht : trimStart (w ++ ('+' :: ds ++ r)) = '+' :: (ds ++ r) := trimStart_append hw (begins_cons.2 (by decide))
    unfold scanYear
    rw [ht]
    simp only
    rw [scanNumber_of h (by simp) (.inr hr)]
    rfl
  | minus h =>
    rename_i ds n
    have ht : trimStart (w ++ ('-' :: ds ++ r)) = '-' :: (ds ++ r) := trimStart_append hw (begins_cons.2 (by decide))
    unfold scanYear
    rw [ht]
    simp only
    rw [scanNumber_of h (by simp) (.inr hr)]
    rfl

theorem scanTwo_some {s r : Str} {n : Nat} (h : scanTwo s = some (n, r)) : ∃ w t, Blank w ∧ TwoText t n ∧ s = w ++ (t ++ r) := by
  obtain ⟨w, hw, hs, _⟩ := trimStart_split s
  obtain ⟨ds, h1, h2, h3⟩ := scanNumber_some h
  exact ⟨w, ds, hw, ⟨h1, h2⟩, by rw [hs, h3]⟩

theorem scanTwo_of {w t r : Str} {n : Nat} (hw : Blank w) (h : TwoText t n) (hr : NotBegins isDigit r) :
    scanTwo (w ++ (t ++ r)) = some (n, r) := by
  obtain ⟨c, t', e, hc⟩ := decimal_head (r := r) h.1
  unfold scanTwo
  rw [trimStart_append hw (by rw [e]; exact begins_cons.2 (digit_not_blank hc))]
  exact scanNumber_of h.1 h.2 (.inr hr)

theorem scanSeparator_some {c : Char} {s r : Str} (h : scanSeparator c s = some r) : ∃ w, Blank w ∧ s = w ++ c :: r := by
  obtain ⟨w, hw, hs, _⟩ := trimStart_split s
  unfold scanSeparator at h
  split at h
  · rename_i d r' hr
    split at h
    · rename_i hd
      cases h
      subst hd
      exact ⟨w, hw, by rw [hs, hr]⟩
    · cases h
  · cases h

theorem scanSeparator_of {c : Char} {w r : Str} (hc : isWhitespace c = false) (hw : Blank w) :
    scanSeparator c (w ++ c :: r) = some r := by
  unfold scanSeparator
  rw [trimStart_append hw (begins_cons.2 hc)]
  simp

theorem scanT_some {s r : Str} (h : scanT s = some r) : ∃ c, (c = 'T' ∨ c = 't' ∨ c = ' ') ∧ s = c :: r := by
  unfold scanT at h
  split at h
  · rename_i c r'
    split at h
    · rename_i hc
      cases h
      exact ⟨c, by rcases hc with h | h | h <;> simp [h], rfl⟩
    · cases h
  · cases h

theorem scanT_of {c : Char} {r : Str} (hc : c = 'T' ∨ c = 't' ∨ c = ' ') : scanT (c :: r) = some r := by
  unfold scanT
  simp only
  rw [if_pos (by rcases hc with h | h | h <;> simp [h])]

theorem begins_after {p : Char → Bool} (n : Nat) (s : Str) (h : ((s.take n).takeWhile p).length < n) :
    NotBegins p (s.drop ((s.take n).takeWhile p).length) := by
  induction n generalizing s with
  | zero => cases h
  | succ n ih =>
    cases s with
    | nil => exact begins_nil p
    | cons c s =>
      rw [List.take_succ_cons, List.takeWhile_cons] at h ⊢
      cases hc : p c with
      | false => simpa [hc] using begins_cons.2 hc
      | true =>
        simp only [hc, if_true, List.length_cons] at h ⊢
        exact ih s (by omega)

theorem scanFraction_some {s r : Str} {n : Nat} (h : scanFraction s = some (n, r)) : ∃ f, FractionText f n ∧ s = f ++ r := by
  unfold scanFraction at h
  split at h
  · rename_i q
    have hl := (List.takeWhile_prefix (p := isDigit) (l := q.take 9)).length_le
    have hd : ∀ c ∈ (q.take 9).takeWhile isDigit, isDigit c = true := fun c hc => List.all_eq_true.1 List.all_takeWhile c hc
    obtain ⟨t, ht⟩ : (q.take 9).takeWhile isDigit <+: q := (List.takeWhile_prefix _).trans (List.take_prefix _ _)
    have hst := begins_after (p := isDigit) 9 q
    generalize (q.take 9).takeWhile isDigit = ds at h hl hd ht hst
    cases ds with
    | nil => cases h
    | cons c ds =>
      cases h
      have hl9 : (c :: ds).length ≤ 9 := by
        simp only [List.length_take] at hl
        omega
      subst ht
      have hdec : Decimal (c :: ds) (digitsValue (c :: ds)) := decimal_digits_iff.2 ⟨by simp, hd, rfl⟩
      rw [List.drop_left] at hst ⊢
      by_cases hlt : (c :: ds).length < 9
      · refine ⟨'.' :: (c :: ds), .short hdec hl9, ?_⟩
        rw [dropWhile_begins (hst hlt)]
        rfl
      · have h9 : (c :: ds).length = 9 := by omega
        rw [h9, Nat.sub_self, Nat.pow_zero, Nat.mul_one]
        have hsplit := List.takeWhile_append_dropWhile (p := isDigit) (l := t)
        have hall : ∀ c ∈ t.takeWhile isDigit, isDigit c = true := fun c hc => List.all_eq_true.1 List.all_takeWhile c hc
        by_cases hm : t.takeWhile isDigit = []
        · refine ⟨'.' :: (c :: ds), ?_, ?_⟩
          · have := FractionText.short hdec hl9
            rwa [h9, Nat.sub_self, Nat.pow_zero, Nat.mul_one] at this
          · rw [hm] at hsplit
            rw [show t.dropWhile isDigit = t from hsplit]
            rfl
        · refine ⟨'.' :: ((c :: ds) ++ t.takeWhile isDigit), .long hdec h9 (decimal_digits_iff.2 ⟨hm, hall, rfl⟩), ?_⟩
          show _ = '.' :: (((c :: ds) ++ t.takeWhile isDigit) ++ t.dropWhile isDigit)
          rw [List.append_assoc, hsplit]
  · cases h
    exact ⟨[], .none, rfl⟩

theorem scanFraction_dot {ds r : Str} {n : Nat} (h : Decimal ds n) (hl : ds.length ≤ 9) (hs : ds.length = 9 ∨ NotBegins isDigit r) :
    scanFraction ('.' :: (ds ++ r)) = some (n * 10 ^ (9 - ds.length), r.dropWhile isDigit) := by
  obtain ⟨h1, h2, h3⟩ := decimal_digits_iff.1 h
  unfold scanFraction
  simp only
  rw [digits_taken h hl hs]
  split
  · contradiction
  · simp [h3]

theorem scanFraction_of {f r : Str} {n : Nat} (h : FractionText f n) (hr : NotBegins isDigit r) (hp : r.head? ≠ some '.') :
    scanFraction (f ++ r) = some (n, r) := by
  cases h with
  | none =>
    rw [List.nil_append]
    unfold scanFraction
    split
    · simp at hp
    · rfl
  | short h hl =>
    rw [List.cons_append, scanFraction_dot h hl (.inr hr), dropWhile_begins hr]
  | long h hl hm =>
    rw [List.cons_append, List.append_assoc, scanFraction_dot h (by omega) (.inl hl), hl,
      dropWhile_append_begins (decimal_digits_iff.1 hm).2.1 hr]
    simp

theorem scanOffsetDigits_some {s r : Str} {n : Nat} (h : scanOffsetDigits s = some (n, r)) :
    ∃ ds, Decimal ds n ∧ ds.length = 2 ∧ s = ds ++ r := by
  unfold scanOffsetDigits at h
  split at h
  · rename_i a b r'
    split at h
    · rename_i hd
      cases h
      exact ⟨[a, b], decimal_digits_iff.2 ⟨by simp, by simp [hd], rfl⟩, rfl, rfl⟩
    · cases h
  · cases h

theorem scanOffsetDigits_of {ds r : Str} {n : Nat} (h : Decimal ds n) (hl : ds.length = 2) :
    scanOffsetDigits (ds ++ r) = some (n, r) := by
  obtain ⟨h1, h2, h3⟩ := decimal_digits_iff.1 h
  match ds, hl with
  | [a, b], _ =>
    unfold scanOffsetDigits
    simp only [List.cons_append, List.nil_append]
    rw [if_pos ⟨h2 a (by simp), h2 b (by simp)⟩, h3]

theorem scanOffsetTime_some {s r : Str} {n : Nat} (h : scanOffsetTime s = some (n, r)) :
    ∃ hs sep ms hours minutes, Decimal hs hours ∧ hs.length = 2 ∧ (∀ c ∈ sep, c = ':' ∨ isWhitespace c = true) ∧
      Decimal ms minutes ∧ ms.length = 2 ∧ minutes < 60 ∧ n = 60 * hours + minutes ∧ s = hs ++ (sep ++ ms) ++ r := by
  unfold scanOffsetTime at h
  cases h1 : scanOffsetDigits s with
  | none => rw [h1] at h; cases h
  | some p =>
    obtain ⟨hours, s1⟩ := p
    rw [h1] at h
    simp only at h
    cases h2 : scanOffsetDigits (s1.dropWhile fun c => c = ':' || isWhitespace c) with
    | none => rw [h2] at h; cases h
    | some p =>
      obtain ⟨minutes, s2⟩ := p
      rw [h2] at h
      simp only at h
      split at h
      · rename_i hm
        cases h
        obtain ⟨hs, a1, a2, a3⟩ := scanOffsetDigits_some h1
        obtain ⟨ms, b1, b2, b3⟩ := scanOffsetDigits_some h2
        refine ⟨hs, s1.takeWhile fun c => c = ':' || isWhitespace c, ms, hours, minutes, a1, a2, ?_, b1, b2, hm, rfl, ?_⟩
        · intro c hc
          simpa using List.all_eq_true.1 List.all_takeWhile c hc
        · rw [a3, List.append_assoc, List.append_assoc, ← b3, List.takeWhile_append_dropWhile]
      · cases h

theorem scanOffsetTime_of {hs sep ms r : Str} {hours minutes : Nat} (h1 : Decimal hs hours) (h2 : hs.length = 2)
    (h3 : ∀ c ∈ sep, c = ':' ∨ isWhitespace c = true) (h4 : Decimal ms minutes) (h5 : ms.length = 2) (h6 : minutes < 60) :
    scanOffsetTime (hs ++ (sep ++ ms) ++ r) = some (60 * hours + minutes, r) := by
  unfold scanOffsetTime
  rw [List.append_assoc, List.append_assoc, scanOffsetDigits_of h1 h2]
  simp only
  obtain ⟨c, t', e, hc⟩ := decimal_head (r := r) h4
  rw [dropWhile_append_begins (by simpa using h3)]
  · rw [scanOffsetDigits_of h4 h5]
    simp only
    rw [if_pos h6]
  · rw [e]
    refine begins_cons.2 ?_
    simp only [Bool.or_eq_false_iff, decide_eq_false_iff_not]
    refine ⟨?_, digit_not_blank hc⟩
    rintro rfl
    simp [isDigit] at hc

theorem asciiUpper_letter {c : Char} {n : Nat} (hn : 65 ≤ n) (hm : n ≤ 90) (h : asciiUpper c = Char.ofNat n) :
    c = Char.ofNat n ∨ c = Char.ofNat (n + 32) := by
  unfold asciiUpper at h
  split at h
  · rename_i hc
    refine .inr ?_
    have h1 : ∀ k < 123, (Char.ofNat k).toNat = k := by decide
    have := congrArg Char.toNat h
    rw [h1 _ (by omega), h1 _ (by omega)] at this
    rw [← Char.ofNat_toNat c]
    congr 1
    omega
  · exact .inl h

theorem scanOffset_some {s r : Str} {m : Int} (h : scanOffset s = some (m, r)) : ∃ w o, Blank w ∧ OffsetText o m ∧ s = w ++ (o ++ r) := by
  obtain ⟨w, hw, hs, _⟩ := trimStart_split s
  unfold scanOffset at h
  simp only at h
  split at h
  · rename_i hu
    cases h
    refine ⟨w, (trimStart s).take 3, hw, ?_, by rw [List.take_append_drop]; exact hs⟩
    generalize (trimStart s).take 3 = u at hu
    have hl := congrArg List.length hu
    rw [List.length_map] at hl
    match u, hl with
    | [a, b, c], _ =>
      replace hu : [asciiUpper a, asciiUpper b, asciiUpper c] = ['U', 'T', 'C'] := hu
      simp only [List.cons.injEq, and_true] at hu
      exact .utc (asciiUpper_letter (n := 85) (by decide) (by decide) hu.1)
        (asciiUpper_letter (n := 84) (by decide) (by decide) hu.2.1) (asciiUpper_letter (n := 67) (by decide) (by decide) hu.2.2)
  · split at h
    · cases h
    · rename_i c q hq
      split at h
      · rename_i hc
        cases h
        exact ⟨w, [c], hw, .zulu hc, by rw [hs, hq]; rfl⟩
      · split at h
        · rename_i hc
          subst hc
          cases ht : scanOffsetTime q with
          | none => rw [ht] at h; cases h
          | some p =>
            rw [ht] at h; cases h
            obtain ⟨hs', sep, ms, hours, minutes, a1, a2, a3, a4, a5, a6, a7, a8⟩ := scanOffsetTime_some ht
            rw [a7]
            refine ⟨w, '+' :: (hs' ++ (sep ++ ms)), hw, by simpa using OffsetText.east a1 a2 a3 a4 a5 a6, ?_⟩
            rw [hs, hq, a8]
            rfl
        · split at h
          · rename_i hc
            cases ht : scanOffsetTime q with
            | none => rw [ht] at h; cases h
            | some p =>
              rw [ht] at h; cases h
              obtain ⟨hs', sep, ms, hours, minutes, a1, a2, a3, a4, a5, a6, a7, a8⟩ := scanOffsetTime_some ht
              rw [a7]
              refine ⟨w, c :: (hs' ++ (sep ++ ms)), hw, by simpa using OffsetText.west hc a1 a2 a3 a4 a5 a6, ?_⟩
              rw [hs, hq, a8]
              rfl
          · cases h

theorem not_utc {c : Char} {r : Str} (h : c ≠ 'U' ∧ c ≠ 'u') : ((c :: r).take 3).map asciiUpper ≠ c!"UTC" := by
  intro e
  have hh := congrArg List.head? e
  replace hh : some (asciiUpper c) = some 'U' := by simpa using hh
  rcases asciiUpper_letter (n := 85) (by decide) (by decide) (Option.some.inj hh) with h' | h'
  · exact h.1 h'
  · exact h.2 h'

theorem scanOffset_of {w o r : Str} {m : Int} (hw : Blank w) (h : OffsetText o m) : scanOffset (w ++ (o ++ r)) = some (m, r) := by
  cases h with
  | @utc u t c hu ht hc =>
    have e : trimStart (w ++ ([u, t, c] ++ r)) = [u, t, c] ++ r :=
      trimStart_append hw (begins_cons.2 (by rcases hu with rfl | rfl <;> decide))
    unfold scanOffset
    simp only [e]
    rw [if_pos]
    · rfl
    · show [asciiUpper u, asciiUpper t, asciiUpper c] = ['U', 'T', 'C']
      rcases hu with rfl | rfl <;> rcases ht with rfl | rfl <;> rcases hc with rfl | rfl <;> decide
  | @zulu z hz =>
    have e : trimStart (w ++ ([z] ++ r)) = z :: r :=
      trimStart_append hw (begins_cons.2 (by rcases hz with rfl | rfl <;> decide))
    unfold scanOffset
    simp only [e]
    rw [if_neg (not_utc (by rcases hz with rfl | rfl <;> decide)), if_pos hz]
  | @east hs sep ms hours minutes h1 h2 h3 h4 h5 h6 =>
    have e : trimStart (w ++ ('+' :: (hs ++ (sep ++ ms)) ++ r)) = '+' :: (hs ++ (sep ++ ms) ++ r) :=
      trimStart_append hw (begins_cons.2 (by decide))
    unfold scanOffset
    simp only [e]
    rw [if_neg (not_utc (by decide)), if_neg (by decide), if_pos trivial, scanOffsetTime_of h1 h2 h3 h4 h5 h6]
    simp
  | @west sign hs sep ms hours minutes hc h1 h2 h3 h4 h5 h6 =>
    have e : trimStart (w ++ (sign :: (hs ++ (sep ++ ms)) ++ r)) = sign :: (hs ++ (sep ++ ms) ++ r) :=
      trimStart_append hw (begins_cons.2 (by rcases hc with rfl | rfl <;> decide))
    unfold scanOffset
    simp only [e]
    rw [if_neg (not_utc (by rcases hc with rfl | rfl <;> decide)), if_neg (by rcases hc with rfl | rfl <;> decide),
      if_neg (by rcases hc with rfl | rfl <;> decide), if_pos hc, scanOffsetTime_of h1 h2 h3 h4 h5 h6]
    simp

theorem offset_head {w o r : Str} {m : Int} (hw : Blank w) (h : OffsetText o m) :
    NotBegins isDigit (w ++ (o ++ r)) ∧ (w ++ (o ++ r)).head? ≠ some '.' := by
  cases w with
  | cons c w =>
    have hc := hw c (by simp)
    refine ⟨begins_cons.2 (blank_not_digit hc), ?_⟩
    simp only [List.cons_append, List.head?_cons, ne_eq, Option.some.injEq]
    rintro rfl
    revert hc
    decide
  | nil =>
    cases h with
    | utc hu _ _ => rcases hu with rfl | rfl <;> exact ⟨begins_cons.2 (by decide), by simp⟩
    | zulu hz => rcases hz with rfl | rfl <;> exact ⟨begins_cons.2 (by decide), by simp⟩
    | east => exact ⟨begins_cons.2 (by decide), by simp⟩
    | west hc => rcases hc with rfl | rfl <;> exact ⟨begins_cons.2 (by decide), by simp⟩

theorem begins_blank {w r : Str} {c : Char} (hw : Blank w) (hc : isDigit c = false) : NotBegins isDigit (w ++ c :: r) := by
  cases w with
  | nil => exact begins_cons.2 hc
  | cons d w => exact begins_cons.2 (blank_not_digit (hw d (by simp)))

theorem scanDate_some {s : Str} {t : Timestamp} {m : Int} (h : scanDate s = some (t, m)) : RelaxedDate s t m := by
  simp only [scanDate, bind, Option.bind_eq_some_iff, Prod.exists] at h
  obtain ⟨y, s1, h1, s2, h2, mo, s3, h3, s4, h4, d, s5, h5, s6, h6, ho, s7, h7, s8, h8, mi, s9, h9, s10, h10, se, s11, h11,
    na, s12, h12, o, s13, h13, h14⟩ := h
  split at h14
  · rename_i hend
    cases h14
    obtain ⟨w0, a0, b0, c0, rfl⟩ := scanYear_some h1
    obtain ⟨w1, b1, rfl⟩ := scanSeparator_some h2
    obtain ⟨w2, a2, b2, c2, rfl⟩ := scanTwo_some h3
    obtain ⟨w3, b3, rfl⟩ := scanSeparator_some h4
    obtain ⟨w4, a4, b4, c4, rfl⟩ := scanTwo_some h5
    obtain ⟨sep, c5, rfl⟩ := scanT_some h6
    obtain ⟨w5, a5, b5, c5', rfl⟩ := scanTwo_some h7
    obtain ⟨w6, b6, rfl⟩ := scanSeparator_some h8
    obtain ⟨w7, a7, b7, c7, rfl⟩ := scanTwo_some h9
    obtain ⟨w8, b8, rfl⟩ := scanSeparator_some h10
    obtain ⟨w9, a9, b9, c9, rfl⟩ := scanTwo_some h11
    obtain ⟨f, cf, rfl⟩ := scanFraction_some h12
    obtain ⟨w10, a10, b10, c10, rfl⟩ := scanOffset_some h13
    obtain ⟨w11, b11, hs, _⟩ := trimStart_split s13
    rw [hend, List.append_nil] at hs
    subst hs
    refine ⟨a0, a2, a4, a5, a7, a9, f, a10, w0, w1, w2, w3, w4, w5, w6, w7, w8, w9, w10, s13, sep, ?_, ?_, c5, c0, c2, c4, c5', c7,
      c9, cf, c10⟩
    · simp [List.append_assoc]
    · simp only [List.mem_cons, List.not_mem_nil, or_false]
      rintro w (rfl | rfl | rfl | rfl | rfl | rfl | rfl | rfl | rfl | rfl | rfl | rfl) <;> assumption
  · cases h14

theorem scanDate_steps {s s1 s2 s3 s4 s5 s6 s7 s8 s9 s10 s11 s12 s13 : Str} {t : Timestamp} {m : Int}
    (h1 : scanYear s = some (t.year, s1)) (h2 : scanSeparator '-' s1 = some s2) (h3 : scanTwo s2 = some (t.month, s3))
    (h4 : scanSeparator '-' s3 = some s4) (h5 : scanTwo s4 = some (t.day, s5)) (h6 : scanT s5 = some s6)
    (h7 : scanTwo s6 = some (t.hour, s7)) (h8 : scanSeparator ':' s7 = some s8) (h9 : scanTwo s8 = some (t.minute, s9))
    (h10 : scanSeparator ':' s9 = some s10) (h11 : scanTwo s10 = some (t.second, s11)) (h12 : scanFraction s11 = some (t.nano, s12))
    (h13 : scanOffset s12 = some (m, s13)) (h14 : trimStart s13 = []) : scanDate s = some (t, m) := by
  simp only [scanDate, bind, h1, h2, h3, h4, h5, h6, h7, h8, h9, h10, h11, h12, h13, h14, Option.bind_some, if_true]

theorem scanDate_of {s : Str} {t : Timestamp} {m : Int} (h : RelaxedDate s t m) : scanDate s = some (t, m) := by
  obtain ⟨y, mo, d, ho, mi, sec, frac, o, w0, w1, w2, w3, w4, w5, w6, w7, w8, w9, w10, w11, sep, hs, hw, hsep, hy, hmo, hd, hh,
    hmi, hse, hf, hof⟩ := h
  simp only [List.mem_cons, List.not_mem_nil, or_false, forall_eq_or_imp, forall_eq] at hw
  obtain ⟨b0, b1, b2, b3, b4, b5, b6, b7, b8, b9, b10, b11⟩ := hw
  have hsd : isDigit sep = false := by rcases hsep with rfl | rfl | rfl <;> decide
  have hoh := offset_head (r := w11) b10 hof
  have hfs : NotBegins isDigit (frac ++ (w10 ++ (o ++ w11))) := by
    generalize t.nano = n at hf
    cases hf with
    | none => exact hoh.1
    | short => exact begins_cons.2 (by decide)
    | long => exact begins_cons.2 (by decide)
  have hend : trimStart w11 = [] := by
    have := trimStart_append (s := []) b11 (begins_nil _)
    rwa [List.append_nil] at this
  have hs' : s = w0 ++ (y ++ (w1 ++ '-' :: (w2 ++ (mo ++ (w3 ++ '-' :: (w4 ++ (d ++ (sep :: (w5 ++ (ho ++ (w6 ++ ':' :: (w7 ++ (mi ++
      (w8 ++ ':' :: (w9 ++ (sec ++ (frac ++ (w10 ++ (o ++ w11))))))))))))))))))) := by
    rw [hs]
    simp [List.append_assoc]
  subst hs'
  exact scanDate_steps (scanYear_of b0 hy (begins_blank b1 (by decide))) (scanSeparator_of (by decide) b1)
    (scanTwo_of b2 hmo (begins_blank b3 (by decide))) (scanSeparator_of (by decide) b3) (scanTwo_of b4 hd (begins_cons.2 hsd))
    (scanT_of hsep) (scanTwo_of b5 hh (begins_blank b6 (by decide))) (scanSeparator_of (by decide) b6)
    (scanTwo_of b7 hmi (begins_blank b8 (by decide))) (scanSeparator_of (by decide) b8) (scanTwo_of b9 hse hfs)
    (scanFraction_of hf hoh.1 hoh.2) (scanOffset_of b10 hof) hend

/-! ## What is written is read -/

theorem yearText_text (y : Int) : YearText (yearText y) y := by
  obtain ⟨ds, n, hd, hl, h⟩ := writtenYear_iff.2 (rfl : yearText y = yearText y)
  rcases h with ⟨e, h4, rfl⟩ | ⟨e, _, rfl⟩ | ⟨e, _, rfl⟩
  · rw [e]; exact .plain hd (by omega)
  · rw [e]; exact .plus hd
  · rw [e]; exact .minus hd

theorem relaxed_written {t : Timestamp} (ht : t.Valid) {f : Str} {n : Nat} (hf : FractionText f n) :
    RelaxedDate (yearText t.year ++ ['-'] ++ pad2 t.month ++ ['-'] ++ pad2 t.day ++ ['T'] ++ pad2 t.hour ++ [':'] ++
      pad2 t.minute ++ [':'] ++ pad2 t.second ++ f ++ ['Z']) { t with nano := n } 0 := by
  refine ⟨_, _, _, _, _, _, f, ['Z'], [], [], [], [], [], [], [], [], [], [], [], [], 'T', ?_, ?_, .inl rfl, yearText_text _,
    ⟨decimal_pad2 ht.month, by simp [pad2]⟩, ⟨decimal_pad2 ht.day, by simp [pad2]⟩, ⟨decimal_pad2 ht.hour, by simp [pad2]⟩,
    ⟨decimal_pad2 ht.minute, by simp [pad2]⟩, ⟨decimal_pad2 ht.second, by simp [pad2]⟩, hf, .zulu (.inl rfl)⟩
  · simp only [List.append_nil, List.nil_append]
  · intro w hw
    have : w = [] := by simpa using hw
    rw [this]
    intro c hc
    cases hc

theorem relaxed_docText {t : Timestamp} (ht : t.Valid) (hn : t.nano < 1000000000) : RelaxedDate t.docText t 0 := by
  have key : FractionText (if t.nano = 0 then []
     else if t.nano % 1000000 = 0 then '.' :: padDigits 3 (t.nano / 1000000)
     else if t.nano % 1000 = 0 then '.' :: padDigits 6 (t.nano / 1000)
     else '.' :: padDigits 9 t.nano) t.nano := by
    have frac : ∀ w k, k < 10 ^ (w + 1) → w + 1 ≤ 9 → FractionText ('.' :: padDigits (w + 1) k) (k * 10 ^ (9 - (w + 1))) := by
      intro w k hk hw
      have := FractionText.short (decimal_padDigits w hk) (by rw [padDigits_length]; exact hw)
      rwa [padDigits_length] at this
    split
    · rename_i h
      rw [h]
      exact .none
    · split
      · have := frac 2 (t.nano / 1000000) (by omega) (by omega)
        rwa [show t.nano / 1000000 * 10 ^ (9 - (2 + 1)) = t.nano by simp only [Nat.reduceAdd, Nat.reduceSub, Nat.reducePow]; omega] at this
      · split
        · have := frac 5 (t.nano / 1000) (by omega) (by omega)
          rwa [show t.nano / 1000 * 10 ^ (9 - (5 + 1)) = t.nano by simp only [Nat.reduceAdd, Nat.reduceSub, Nat.reducePow]; omega] at this
        · have := frac 8 t.nano (by omega) (by omega)
          rwa [show t.nano * 10 ^ (9 - (8 + 1)) = t.nano by simp] at this
  exact relaxed_written ht key

theorem relaxed_toText {t : Timestamp} (ht : t.Valid) : RelaxedDate t.toText t.truncate 0 := by
  have := relaxed_written ht .none
  rwa [List.append_nil] at this

/-! ## The calendar -/

theorem monthDays_eq (y : Int) (m : Nat) : monthDays y m = daysInMonth y m := by
  unfold monthDays daysInMonth
  split
  · rfl
  · rfl
  · rfl
  · rfl
  · rfl
  · rename_i h1 h2 h3 h4 h5
    rw [if_neg h1, if_neg (by rintro (h | h | h | h) <;> contradiction)]

/-- Days of the year before a month. -/
def daysBefore (y : Int) (m : Nat) : Nat := ((List.range m).map fun i => daysInMonth y (i + 1)).sum

theorem daysBefore_succ (y : Int) (m : Nat) : daysBefore y (m + 1) = daysBefore y m + daysInMonth y (m + 1) := by
  simp [daysBefore, List.range_succ]

theorem daysBefore_le (y : Int) {m n : Nat} (h : m ≤ n) : daysBefore y m ≤ daysBefore y n := by
  induction h with
  | refl => exact Nat.le_refl _
  | step _ ih => rw [daysBefore_succ]; omega

theorem daysBefore_year (y : Int) : daysBefore y 12 = if y % 4 = 0 ∧ (y % 100 ≠ 0 ∨ y % 400 = 0) then 366 else 365 := by
  simp only [daysBefore_succ]
  simp only [daysBefore, daysInMonth]
  split <;> simp

theorem dayNumber_eq (y : Int) (m d : Nat) : dayNumber y m d =
    365 * (y - 1) + (y - 1) / 4 - (y - 1) / 100 + (y - 1) / 400 + daysBefore y (m - 1) + d - 1 := rfl

theorem year_start (y : Int) : 365 * (y - 1) + (y - 1) / 4 - (y - 1) / 100 + (y - 1) / 400 + daysBefore y 12 =
    365 * y + y / 4 - y / 100 + y / 400 := by
  rw [daysBefore_year]
  split <;> omega

theorem year_start_le {y z : Int} (h : y ≤ z) : 365 * y + y / 4 - y / 100 + y / 400 ≤ 365 * z + z / 4 - z / 100 + z / 400 := by
  rcases Int.lt_or_eq_of_le h with h | h
  · omega
  · subst h
    exact Int.le_refl _

theorem dayNumber_inj {y y' : Int} {m m' d d' : Nat} (hm : 1 ≤ m ∧ m ≤ 12) (hd : 1 ≤ d ∧ d ≤ daysInMonth y m)
    (hm' : 1 ≤ m' ∧ m' ≤ 12) (hd' : 1 ≤ d' ∧ d' ≤ daysInMonth y' m') (h : dayNumber y m d = dayNumber y' m' d') :
    y = y' ∧ m = m' ∧ d = d' := by
  have within : ∀ {y : Int} {m d : Nat}, 1 ≤ m → m ≤ 12 → d ≤ daysInMonth y m → daysBefore y (m - 1) + d ≤ daysBefore y 12 := by
    intro y m d h1 h2 h3
    have := daysBefore_le y h2
    have e := daysBefore_succ y (m - 1)
    rw [Nat.sub_add_cancel h1] at e
    omega
  have w1 := within hm.1 hm.2 hd.2
  have w2 := within hm'.1 hm'.2 hd'.2
  rw [dayNumber_eq, dayNumber_eq] at h
  have s1 := year_start y
  have s2 := year_start y'
  have hy : y = y' := by
    rcases Int.lt_trichotomy y y' with hl | he | hl
    · have := year_start_le (show y ≤ y' - 1 by omega)
      omega
    · exact he
    · have := year_start_le (show y' ≤ y - 1 by omega)
      omega
  subst hy
  refine ⟨rfl, ?_⟩
  have later : ∀ {m m' d d' : Nat}, 1 ≤ m → d ≤ daysInMonth y m → m < m' → 1 ≤ d' →
      daysBefore y (m - 1) + d < daysBefore y (m' - 1) + d' := by
    intro m m' d d' h1 h2 h3 h4
    have e := daysBefore_succ y (m - 1)
    rw [Nat.sub_add_cancel h1] at e
    have := daysBefore_le y (show m ≤ m' - 1 by omega)
    omega
  have hmm : m = m' := by
    rcases Nat.lt_trichotomy m m' with hl | he | hl
    · have := later hm.1 hd.2 hl hd'.1
      omega
    · exact he
    · have := later hm'.1 hd'.2 hl hd.1
      omega
  subst hmm
  exact ⟨rfl, by omega⟩

theorem daysInMonth_pos (y : Int) (m : Nat) : 28 ≤ daysInMonth y m ∧ daysInMonth y m ≤ 31 := by
  unfold daysInMonth
  repeat' split
  all_goals omega

/-- The date alone is one of the calendar, whatever the year. -/
def DayOk (t : Timestamp) : Prop := (1 ≤ t.month ∧ t.month ≤ 12) ∧ 1 ≤ t.day ∧ t.day ≤ daysInMonth t.year t.month

theorem dayAfter_ok {t : Timestamp} (h : DayOk t) : DayOk t.dayAfter ∧
    dayNumber t.dayAfter.year t.dayAfter.month t.dayAfter.day = dayNumber t.year t.month t.day + 1 := by
  obtain ⟨hm, hd⟩ := h
  unfold Timestamp.dayAfter
  rw [monthDays_eq]
  have e := daysBefore_succ t.year (t.month - 1)
  rw [Nat.sub_add_cancel hm.1] at e
  split
  · refine ⟨⟨hm, ?_⟩, ?_⟩
    · simp only; omega
    · simp only [dayNumber_eq]; omega
  · split
    · refine ⟨⟨?_, ?_⟩, ?_⟩
      · simp only; omega
      · have := daysInMonth_pos t.year (t.month + 1)
        simp only; omega
      · simp only [dayNumber_eq, Nat.add_sub_cancel]; omega
    · have h12 : t.month = 12 := by omega
      refine ⟨⟨?_, ?_⟩, ?_⟩
      · simp only; omega
      · have := daysInMonth_pos (t.year + 1) 1
        simp only; omega
      · have := year_start t.year
        have h0 : daysBefore (t.year + 1) (1 - 1) = 0 := rfl
        have e' : daysBefore t.year 12 = daysBefore t.year (t.month - 1) + daysInMonth t.year t.month := by rw [← e, h12]
        simp only [dayNumber_eq, h0, Int.add_sub_cancel]
        omega

theorem dayBefore_ok {t : Timestamp} (h : DayOk t) : DayOk t.dayBefore ∧
    dayNumber t.dayBefore.year t.dayBefore.month t.dayBefore.day = dayNumber t.year t.month t.day - 1 := by
  obtain ⟨hm, hd⟩ := h
  unfold Timestamp.dayBefore
  rw [monthDays_eq]
  split
  · refine ⟨⟨hm, ?_⟩, ?_⟩
    · simp only; omega
    · simp only [dayNumber_eq]; omega
  · split
    · refine ⟨⟨?_, ?_⟩, ?_⟩
      · simp only; omega
      · have := daysInMonth_pos t.year (t.month - 1)
        simp only; omega
      · have e := daysBefore_succ t.year (t.month - 1 - 1)
        rw [Nat.sub_add_cancel (by omega)] at e
        simp only [dayNumber_eq]; omega
    · have h1 : t.month = 1 := by omega
      refine ⟨⟨?_, ?_⟩, ?_⟩
      · simp only; omega
      · simp only
        exact ⟨by omega, by simp [daysInMonth]⟩
      · have := year_start (t.year - 1)
        have h0 : daysBefore t.year (1 - 1) = 0 := rfl
        have e := daysBefore_succ (t.year - 1) 11
        rw [show daysInMonth (t.year - 1) (11 + 1) = 31 by simp [daysInMonth]] at e
        simp only [dayNumber_eq]
        rw [h1, h0] at *
        simp only [Nat.reduceSub, Nat.reduceAdd] at *
        omega

theorem toUtc_ok {t : Timestamp} (h : DayOk t) (hh : t.hour < 24) (hm : t.minute < 60) {m : Int} (ho : m.natAbs < 1440) :
    DayOk (t.toUtc m) ∧ (t.toUtc m).hour < 24 ∧ (t.toUtc m).minute < 60 ∧ LaterBy (-m) (t.toUtc m) t := by
  obtain ⟨a1, a2⟩ := dayAfter_ok h
  obtain ⟨b1, b2⟩ := dayBefore_ok h
  have sa : t.dayAfter.second = t.second ∧ t.dayAfter.nano = t.nano := by
    unfold Timestamp.dayAfter
    split
    · exact ⟨rfl, rfl⟩
    · split <;> exact ⟨rfl, rfl⟩
  have sb : t.dayBefore.second = t.second ∧ t.dayBefore.nano = t.nano := by
    unfold Timestamp.dayBefore
    split
    · exact ⟨rfl, rfl⟩
    · split <;> exact ⟨rfl, rfl⟩
  unfold Timestamp.toUtc
  simp only
  split
  · refine ⟨b1, ?_, ?_, ?_, sb⟩
    · simp only; omega
    · simp only; omega
    · simp only [minuteNumber]
      rw [b2]; omega
  · split
    · refine ⟨h, ?_, ?_, ?_, rfl, rfl⟩
      · simp only; omega
      · simp only; omega
      · simp only [minuteNumber]
        omega
    · refine ⟨a1, ?_, ?_, ?_, sa⟩
      · simp only; omega
      · simp only; omega
      · simp only [minuteNumber]
        rw [a2]; omega

theorem minuteNumber_inj {t u : Timestamp} (ht : DayOk t) (hu : DayOk u) (h1 : t.hour < 24) (h2 : t.minute < 60) (h3 : u.hour < 24)
    (h4 : u.minute < 60) (h : minuteNumber t = minuteNumber u) (hs : t.second = u.second) (hn : t.nano = u.nano) : t = u := by
  unfold minuteNumber at h
  obtain ⟨a, b, c⟩ := dayNumber_inj ht.1 ht.2 hu.1 hu.2 (by omega)
  cases t; cases u
  simp only at *
  subst a b c hs hn
  simp only [Timestamp.mk.injEq, true_and, and_true]
  omega

theorem fraction_lt {s : Str} {n : Nat} (h : FractionText s n) : n < 1000000000 := by
  cases h with
  | none => omega
  | @short ds n h hl =>
    have h1 := decimal_lt h
    have h2 : 10 ^ ds.length * 10 ^ (9 - ds.length) = 1000000000 := by
      rw [← Nat.pow_add, show ds.length + (9 - ds.length) = 9 by omega]
    rw [← h2]
    exact (Nat.mul_lt_mul_right (Nat.pow_pos (by omega))).2 h1
  | long h hl hm =>
    have := decimal_lt h
    rw [hl] at this
    exact this

theorem possible_iff {t : Timestamp} (hn : t.nano < 1000000000) : t.possible = true ↔ Calendar t := by
  unfold Timestamp.possible chronoYear
  simp only [Bool.and_eq_true, decide_eq_true_eq, monthDays_eq]
  constructor
  · rintro ⟨⟨⟨⟨⟨⟨⟨h1, h2⟩, h3⟩, h4⟩, h5⟩, h6⟩, h7⟩, h8⟩
    exact ⟨of_decide_eq_true h1, ⟨h2, h3⟩, ⟨h4, h5⟩, by omega, by omega, h8, hn⟩
  · rintro ⟨h1, h2, h3, h4, h5, h6, _⟩
    exact ⟨⟨⟨⟨⟨⟨⟨decide_eq_true h1, h2.1⟩, h2.2⟩, h3.1⟩, h3.2⟩, by omega⟩, by omega⟩, h6⟩

theorem chronoDate_iff {s : Str} {u : Timestamp} : chronoDate s = some u ↔
    ∃ t m, RelaxedDate s t m ∧ Calendar t ∧ m.natAbs < 1440 ∧ Calendar u ∧ LaterBy (-m) u t := by
  unfold chronoDate
  constructor
  · intro h
    cases hs : scanDate s with
    | none => rw [hs] at h; cases h
    | some p =>
      obtain ⟨t, m⟩ := p
      rw [hs] at h
      simp only at h
      split at h
      · rename_i hc
        cases h
        have hr := scanDate_some hs
        have hn : t.nano < 1000000000 := by
          obtain ⟨_, _, _, _, _, _, _, _, _, _, _, _, _, _, _, _, _, _, _, _, _, _, _, _, _, _, _, _, _, _, hf, _⟩ := hr
          exact fraction_lt hf
        have ht := (possible_iff hn).1 hc.1
        obtain ⟨k1, k2, k3, k4⟩ := toUtc_ok ⟨ht.month, ht.day⟩ ht.hour ht.minute hc.2.1
        refine ⟨t, m, hr, ht, hc.2.1, ⟨hc.2.2, k1.1, k1.2, k2, k3, ?_, ?_⟩, k4⟩
        · rw [k4.2.1]; exact ht.second
        · rw [k4.2.2]; exact hn
      · cases h
  · rintro ⟨t, m, hr, ht, hm, hu, hl⟩
    rw [scanDate_of hr]
    simp only
    obtain ⟨k1, k2, k3, k4⟩ := toUtc_ok ⟨ht.month, ht.day⟩ ht.hour ht.minute hm
    have e : t.toUtc m = u := minuteNumber_inj k1 ⟨hu.month, hu.day⟩ k2 k3 hu.hour hu.minute (k4.1.trans hl.1.symm)
      (k4.2.1.trans hl.2.1.symm) (k4.2.2.trans hl.2.2.symm)
    rw [e, if_pos ⟨(possible_iff ht.nano).2 ht, hm, hu.year⟩]

theorem chronoDate_docText {t : Timestamp} (h : Calendar t) : chronoDate t.docText = some t :=
  chronoDate_iff.2 ⟨t, 0, relaxed_docText h.valid h.nano, h, by decide, h, by simp [LaterBy]⟩

end Rops
