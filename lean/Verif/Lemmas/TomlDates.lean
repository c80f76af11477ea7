import Verif.Spec.TomlDates
import Verif.Spec.TomlText
import Verif.Lemmas.TomlNumbers
import Verif.Lemmas.TomlStrings
import Verif.Lemmas.TomlLexemes
import Verif.Lemmas.Decimals
/-!
# Reading and writing dates of TOML
-/

namespace Rops

open Spec

/-! ## Digits -/

theorem fixed_digits {w n : Nat} {x : Str} (h : FixedText w n x) : ∀ c ∈ x, c.isDigit = true := fun c hc =>
  digitIn_ten.2 ((numberIn_iff.1 h.2).1 c hc)

theorem fixed_lt {w n : Nat} {x : Str} (h : FixedText w n x) : n < 10 ^ w := by
  have := numberIn_lt (by omega) h.2
  rwa [h.1] at this

theorem tomlFixed_of {w n : Nat} {x : Str} (h : FixedText w n x) (r : Str) : tomlFixed w (x ++ r) = some (n, r) := by
  obtain ⟨hl, hn⟩ := h
  obtain ⟨hd, rfl⟩ := numberIn_iff.1 hn
  unfold tomlFixed
  rw [List.take_left' hl, List.drop_left' hl, if_pos ⟨hl, List.all_eq_true.2 fun c hc => digitIn_ten.2 (hd c hc)⟩]

theorem tomlFixed_text {w n : Nat} {s r : Str} (h : tomlFixed w s = some (n, r)) : ∃ x, s = x ++ r ∧ FixedText w n x := by
  unfold tomlFixed at h
  split at h
  · rename_i hc
    simp only [Option.some.injEq, Prod.mk.injEq] at h
    obtain ⟨rfl, rfl⟩ := h
    exact ⟨s.take w, (List.take_append_drop _ _).symm, hc.1,
      numberIn_iff.2 ⟨fun c h => digitIn_ten.1 (List.all_eq_true.1 hc.2 c h), rfl⟩⟩
  · cases h

theorem tomlSkip_of (c : Char) (r : Str) : tomlSkip c (c :: r) = some r := by simp [tomlSkip]

theorem tomlSkip_text {c : Char} {s r : Str} (h : tomlSkip c s = some r) : s = c :: r := by
  cases s with
  | nil => cases h
  | cons a s =>
    simp only [tomlSkip] at h
    split at h
    · rename_i e; cases h; rw [e]
    · cases h

theorem numberIn_append {x y : Str} {n : Nat} (h : NumberIn 10 (x ++ y) n) :
    ∃ a b, NumberIn 10 x a ∧ NumberIn 10 y b ∧ n = a * 10 ^ y.length + b := by
  rw [← List.reverse_reverse y] at h ⊢
  generalize y.reverse = y at h ⊢
  induction y generalizing n with
  | nil => exact ⟨n, 0, by simpa using h, .nil, by simp⟩
  | cons c y ih =>
    rw [List.reverse_cons, ← List.append_assoc] at h
    generalize hz : x ++ y.reverse ++ [c] = z at h
    cases h with
    | nil => simp at hz
    | @snoc ds k d c' hk hd hlt =>
      obtain ⟨h1, h2⟩ := List.append_inj' hz (by simp)
      cases h2
      subst h1
      obtain ⟨a, b, ha, hb, e⟩ := ih hk
      refine ⟨a, b * 10 + d, ha, ?_, ?_⟩
      · rw [List.reverse_cons]
        exact .snoc hb hd hlt
      · simp only [List.length_reverse, List.length_cons, Nat.pow_succ] at e ⊢
        rw [e, Nat.add_mul, Nat.mul_assoc, Nat.add_assoc]

theorem numberIn_unique {base : Nat} {x : Str} {n m : Nat} (h : NumberIn base x n) (h' : NumberIn base x m) : n = m :=
  (numberIn_iff.1 h).2.trans (numberIn_iff.1 h').2.symm

theorem tomlNano_eq {ds : Str} {n : Nat} (h : NumberIn 10 ds n) : tomlNano ds = n * 10 ^ 9 / 10 ^ ds.length := by
  unfold tomlNano
  rw [← List.take_append_drop 9 ds] at h
  obtain ⟨a, b, ha, hb, e⟩ := numberIn_append h
  rw [← (numberIn_iff.1 ha).2, List.length_take]
  by_cases hl : ds.length ≤ 9
  · rw [Nat.min_eq_right hl]
    have hz : (ds.drop 9).length = 0 := by rw [List.length_drop]; omega
    have hb0 : b = 0 := by
      have := numberIn_lt (by omega) hb
      rw [hz] at this
      omega
    rw [hz, hb0] at e
    rw [show n = a by omega, show 10 ^ 9 = 10 ^ (9 - ds.length) * 10 ^ ds.length by rw [← Nat.pow_add]; congr 1; omega, ← Nat.mul_assoc,
      Nat.mul_div_cancel _ (Nat.pow_pos (by omega))]
  · rw [Nat.min_eq_left (by omega), Nat.sub_self, Nat.pow_zero, Nat.mul_one]
    have hz : (ds.drop 9).length = ds.length - 9 := by rw [List.length_drop]
    have hlt := numberIn_lt (by omega) hb
    rw [hz] at e hlt
    rw [show ds.length = (ds.length - 9) + 9 by omega, Nat.pow_add, Nat.mul_div_mul_right _ _ (Nat.pow_pos (by omega)), e]
    rw [Nat.add_comm, Nat.add_mul_div_right _ _ (Nat.pow_pos (by omega)),
      Nat.div_eq_of_lt hlt, Nat.zero_add]

/-! ## Reading -/

theorem tomlMonthDays_eq (y m : Nat) : tomlMonthDays y m = daysInMonth y m := by
  unfold tomlMonthDays daysInMonth
  have e : (y % 4 = 0 ∧ (y % 100 ≠ 0 ∨ y % 400 = 0)) ↔ ((y : Int) % 4 = 0 ∧ ((y : Int) % 100 ≠ 0 ∨ (y : Int) % 400 = 0)) := by omega
  simp only [e]

theorem tomlFullDate_text {s r : Str} {d : TomlDate} (h : tomlFullDate s = some (d, r)) : ∃ x, s = x ++ r ∧ TomlDayText d x := by
  unfold tomlFullDate at h
  simp only [Option.bind_eq_some_iff, Prod.exists] at h
  obtain ⟨y, s1, h1, s2, h2, m, s3, h3, s4, h4, e, s5, h5, h⟩ := h
  obtain ⟨a, rfl, ha⟩ := tomlFixed_text h1
  obtain rfl := tomlSkip_text h2
  obtain ⟨b, rfl, hb⟩ := tomlFixed_text h3
  obtain rfl := tomlSkip_text h4
  obtain ⟨c, rfl, hc⟩ := tomlFixed_text h5
  split at h
  · rename_i hcond
    simp only [Option.some.injEq, Prod.mk.injEq] at h
    obtain ⟨rfl, rfl⟩ := h
    rw [tomlMonthDays_eq] at hcond
    exact ⟨a ++ '-' :: (b ++ '-' :: c), by simp, a, b, c, rfl, ha, hb, hc, ⟨hcond.1, hcond.2.1⟩, hcond.2.2⟩
  · cases h

theorem tomlFullDate_of {d : TomlDate} {x : Str} (h : TomlDayText d x) (r : Str) : tomlFullDate (x ++ r) = some (d, r) := by
  obtain ⟨a, b, c, rfl, ha, hb, hc, hm, hd⟩ := h
  unfold tomlFullDate
  simp only [List.append_assoc, List.cons_append, tomlFixed_of ha, tomlSkip_of, tomlFixed_of hb, tomlFixed_of hc, Option.bind_some]
  rw [tomlMonthDays_eq, if_pos ⟨hm.1, hm.2, hd⟩]

theorem tomlSecFrac_text {s r : Str} {n : Nat} (h : tomlSecFrac s = some (n, r)) : ∃ x, s = x ++ r ∧ TomlSecFracText n x := by
  unfold tomlSecFrac at h
  split at h
  · rename_i t
    split at h
    · cases h
    · rename_i hne
      simp only [Option.some.injEq, Prod.mk.injEq] at h
      obtain ⟨rfl, rfl⟩ := h
      have hn : NumberIn 10 (t.takeWhile Char.isDigit) (tomlNat 10 (t.takeWhile Char.isDigit)) :=
        numberIn_iff.2 ⟨fun c h => digitIn_ten.1 (List.all_eq_true.1 (List.all_takeWhile (p := Char.isDigit)) c h), rfl⟩
      exact ⟨'.' :: t.takeWhile Char.isDigit, by rw [List.cons_append, List.takeWhile_append_dropWhile], .inr
        ⟨_, _, rfl, fun e => hne (by rw [e]; rfl), hn, tomlNano_eq hn⟩⟩
  · simp only [Option.some.injEq, Prod.mk.injEq] at h
    obtain ⟨rfl, rfl⟩ := h
    exact ⟨[], rfl, .inl ⟨rfl, rfl⟩⟩

/-- What may follow a time. -/
def AfterTime (r : Str) : Prop := ∀ c, r.head? = some c → c.isDigit = false ∧ c ≠ '.'

theorem split_digits {x r : Str} (h : ∀ c ∈ x, c.isDigit = true) (hr : ∀ c, r.head? = some c → c.isDigit = false) :
    (x ++ r).takeWhile Char.isDigit = x ∧ (x ++ r).dropWhile Char.isDigit = r := by
  induction x with
  | nil =>
    cases r with
    | nil => exact ⟨rfl, rfl⟩
    | cons c r =>
      have := hr c rfl
      simp [this]
  | cons a x ih =>
    obtain ⟨h1, h2⟩ := ih fun c hc => h c (by simp [hc])
    have ha := h a (by simp)
    simp [ha, h1, h2]

theorem tomlSecFrac_of {n : Nat} {x r : Str} (h : TomlSecFracText n x) (hr : AfterTime r) : tomlSecFrac (x ++ r) = some (n, r) := by
  rcases h with ⟨rfl, rfl⟩ | ⟨ds, k, rfl, hne, hk, rfl⟩
  · unfold tomlSecFrac
    split
    · rename_i e
      rw [List.nil_append] at e
      subst e
      exact absurd rfl (hr _ rfl).2
    · rfl
  · simp only [tomlSecFrac, List.cons_append]
    obtain ⟨h1, h2⟩ := split_digits (x := ds) (r := r) (fun c hc => digitIn_ten.2 ((numberIn_iff.1 hk).1 c hc)) fun c hc => (hr c hc).1
    rw [h1, h2, if_neg (by simpa using hne), tomlNano_eq hk]

theorem tomlPartialTime_text {s r : Str} {t : TomlTime} (h : tomlPartialTime s = some (t, r)) : ∃ x, s = x ++ r ∧ TomlTimeText t x := by
  unfold tomlPartialTime at h
  simp only [Option.bind_eq_some_iff, Prod.exists] at h
  obtain ⟨y, s1, h1, s2, h2, m, s3, h3, s4, h4, e, s5, h5, n, s6, h6, h⟩ := h
  obtain ⟨a, rfl, ha⟩ := tomlFixed_text h1
  obtain rfl := tomlSkip_text h2
  obtain ⟨b, rfl, hb⟩ := tomlFixed_text h3
  obtain rfl := tomlSkip_text h4
  obtain ⟨c, rfl, hc⟩ := tomlFixed_text h5
  obtain ⟨f, rfl, hf⟩ := tomlSecFrac_text h6
  split at h
  · rename_i hcond
    simp only [Option.some.injEq, Prod.mk.injEq] at h
    obtain ⟨rfl, rfl⟩ := h
    exact ⟨a ++ ':' :: (b ++ ':' :: (c ++ f)), by simp, a, b, c, f, rfl, ha, hb, hc, hf, by dsimp only; omega, by dsimp only; omega, hcond.2.2⟩
  · cases h

theorem tomlPartialTime_of {t : TomlTime} {x r : Str} (h : TomlTimeText t x) (hr : AfterTime r) :
    tomlPartialTime (x ++ r) = some (t, r) := by
  obtain ⟨a, b, c, f, rfl, ha, hb, hc, hf, h1, h2, h3⟩ := h
  unfold tomlPartialTime
  simp only [List.append_assoc, List.cons_append, tomlFixed_of ha, tomlSkip_of, tomlFixed_of hb, tomlFixed_of hc, Option.bind_some,
    tomlSecFrac_of hf hr]
  rw [if_pos ⟨by omega, by omega, h3⟩]

theorem tomlOffsetDigits_iff {r : Str} {k : Nat} : tomlOffsetDigits r = some k ↔
    ∃ h y n z, r = y ++ ':' :: z ∧ FixedText 2 h y ∧ FixedText 2 n z ∧ h < 24 ∧ n < 60 ∧ k = h * 60 + n := by
  constructor
  · intro h
    unfold tomlOffsetDigits at h
    simp only [Option.bind_eq_some_iff, Prod.exists] at h
    obtain ⟨y, s1, h1, s2, h2, m, s3, h3, h⟩ := h
    obtain ⟨a, rfl, ha⟩ := tomlFixed_text h1
    obtain rfl := tomlSkip_text h2
    obtain ⟨b, rfl, hb⟩ := tomlFixed_text h3
    split at h
    · rename_i hcond
      cases h
      obtain ⟨hc1, hc2, rfl⟩ := hcond
      exact ⟨y, a, m, b, by simp, ha, hb, by omega, by omega, rfl⟩
    · cases h
  · rintro ⟨h, y, n, z, rfl, hy, hz, h1, h2, rfl⟩
    unfold tomlOffsetDigits
    have := tomlFixed_of hz []
    rw [List.append_nil] at this
    simp only [tomlFixed_of hy, tomlSkip_of, this, Option.bind_some]
    rw [if_pos ⟨by omega, by omega, trivial⟩]

theorem tomlTimeOffset_some {r : Str} {o : TomlOffset} : tomlTimeOffset r = some (some o) ↔ TomlOffsetText o r := by
  cases r with
  | nil =>
    refine ⟨fun h => (nomatch h), fun h => ?_⟩
    cases o with
    | utc => rcases h with h | h <;> cases h
    | minutes m => obtain ⟨_, _, _, _, _, h, _⟩ := h; cases h
  | cons c r =>
    simp only [tomlTimeOffset]
    constructor
    · intro h
      split at h
      · rename_i hc
        cases h
        obtain ⟨rfl | rfl, rfl⟩ := hc
        · exact .inl rfl
        · exact .inr rfl
      · split at h
        · rename_i hc
          obtain ⟨k, hk, e⟩ := Option.map_eq_some_iff.1 h
          cases e
          obtain ⟨hh, y, n, z, rfl, hy, hz, h1, h2, rfl⟩ := tomlOffsetDigits_iff.1 hk
          exact ⟨c, hh, y, n, z, rfl, hy, hz, h1, h2, .inl ⟨hc, rfl⟩⟩
        · split at h
          · rename_i hc
            obtain ⟨k, hk, e⟩ := Option.map_eq_some_iff.1 h
            cases e
            obtain ⟨hh, y, n, z, rfl, hy, hz, h1, h2, rfl⟩ := tomlOffsetDigits_iff.1 hk
            exact ⟨c, hh, y, n, z, rfl, hy, hz, h1, h2, .inr ⟨hc, rfl⟩⟩
          · cases h
    · intro h
      cases o with
      | utc =>
        rcases h with h | h <;> cases h <;> rfl
      | minutes m =>
        obtain ⟨sg, h, y, n, z, e, hy, hz, h1, h2, ho⟩ := h
        cases e
        have hk := tomlOffsetDigits_iff.2 ⟨h, y, n, z, rfl, hy, hz, h1, h2, rfl⟩
        rcases ho with ⟨rfl, rfl⟩ | ⟨rfl, rfl⟩
        · rw [if_neg (fun e => by simp at e), if_pos rfl, hk]; rfl
        · rw [if_neg (fun e => by simp at e), if_neg (by decide), if_pos rfl, hk]; rfl

theorem tomlTimeOffset_none {r : Str} : tomlTimeOffset r = some none ↔ r = [] := by
  cases r with
  | nil => exact ⟨fun _ => rfl, fun _ => rfl⟩
  | cons c r =>
    refine ⟨fun h => ?_, fun h => (nomatch h)⟩
    simp only [tomlTimeOffset] at h
    split at h
    · cases h
    · split at h
      · obtain ⟨_, _, e⟩ := Option.map_eq_some_iff.1 h
        cases e
      · split at h
        · obtain ⟨_, _, e⟩ := Option.map_eq_some_iff.1 h
          cases e
        · cases h

theorem offset_after {o : TomlOffset} {z : Str} (h : TomlOffsetText o z) : AfterTime z := by
  intro c hc
  cases o with
  | utc => rcases h with rfl | rfl <;> cases hc <;> decide
  | minutes m =>
    obtain ⟨sg, _, _, _, _, rfl, _, _, _, _, ho⟩ := h
    cases hc
    rcases ho with ⟨rfl, _⟩ | ⟨rfl, _⟩ <;> decide

theorem time_noDay {t : TomlTime} {x : Str} (h : TomlTimeText t x) (r : Str) : tomlFullDate (x ++ r) = none := by
  obtain ⟨a, b, c, f, rfl, ha, _⟩ := h
  cases hd : tomlFullDate (a ++ ':' :: (b ++ ':' :: (c ++ f)) ++ r) with
  | none => rfl
  | some p =>
    exfalso
    obtain ⟨x, e, y, _, _, rfl, hy, _⟩ := tomlFullDate_text (d := p.1) (r := p.2) hd
    obtain ⟨a1, a2, rfl⟩ : ∃ a1 a2, a = [a1, a2] := by
      match a, ha.1 with
      | [a1, a2], _ => exact ⟨a1, a2, rfl⟩
    obtain ⟨y1, y2, y3, y4, rfl⟩ : ∃ y1 y2 y3 y4, y = [y1, y2, y3, y4] := by
      match y, hy.1 with
      | [y1, y2, y3, y4], _ => exact ⟨y1, y2, y3, y4, rfl⟩
    simp only [List.cons_append, List.nil_append, List.cons.injEq] at e
    have := fixed_digits hy y3 (by simp)
    rw [← e.2.2.1] at this
    exact absurd this (by decide)

theorem tomlMoment_iff {s : Str} {t : TomlMoment} : tomlMoment s = some t ↔ TomlMomentText t s := by
  constructor
  · intro h
    unfold tomlMoment at h
    split at h
    · rename_i d hd
      cases h
      obtain ⟨x, rfl, hx⟩ := tomlFullDate_text hd
      rw [List.append_nil]
      exact .day hx
    · rename_i d c r hd
      obtain ⟨x, rfl, hx⟩ := tomlFullDate_text hd
      split at h
      · rename_i hc
        simp only [Option.bind_eq_some_iff, Prod.exists, Option.map_eq_some_iff] at h
        obtain ⟨u, r', hu, o, ho, rfl⟩ := h
        obtain ⟨y, rfl, hy⟩ := tomlPartialTime_text hu
        have hc' : c ∈ ['T', 't', ' '] := by simpa using hc
        cases o with
        | none =>
          rw [tomlTimeOffset_none.1 ho, List.append_nil]
          exact .both hx hc' hy
        | some o => exact .offset hx hc' hy (tomlTimeOffset_some.1 ho)
      · cases h
    · simp only [Option.bind_eq_some_iff, Prod.exists] at h
      obtain ⟨u, r', hu, h⟩ := h
      split at h
      · rename_i e
        cases h
        subst e
        obtain ⟨y, rfl, hy⟩ := tomlPartialTime_text hu
        rw [List.append_nil]
        exact .time hy
      · cases h
  · intro h
    unfold tomlMoment
    cases h with
    | day h =>
      have := tomlFullDate_of h []
      rw [List.append_nil] at this
      rw [this]
    | time h =>
      have h1 := time_noDay h []
      have h2 := tomlPartialTime_of h (r := []) (fun c hc => nomatch hc)
      rw [List.append_nil] at h1 h2
      rw [h1, h2]
      rfl
    | both hd hc ht =>
      have h2 := tomlPartialTime_of ht (r := []) (fun c hc => nomatch hc)
      rw [List.append_nil] at h2
      rw [tomlFullDate_of hd]
      simp only
      rw [if_pos (by simpa using hc), h2]
      rfl
    | offset hd hc ht ho =>
      rw [tomlFullDate_of hd]
      simp only
      rw [if_pos (by simpa using hc), tomlPartialTime_of ht (offset_after ho)]
      simp only [Option.bind_some, tomlTimeOffset_some.2 ho]
      rfl

/-! ## Writing -/

theorem fixed_pad {w n : Nat} (h : n < 10 ^ w) : FixedText w n (padDigits w n) := by
  refine ⟨padDigits_length w n, ?_⟩
  induction w generalizing n with
  | zero => rw [show n = 0 by simpa using h]; exact .nil
  | succ w ih =>
    rw [padDigits]
    have h1 := ih (n := n / 10) (by rw [Nat.div_lt_iff_lt_mul (by omega)]; rwa [Nat.pow_succ] at h)
    have hd : HexDigit (digit n) (n % 10) := by
      have hm : n % 10 < 10 := Nat.mod_lt _ (by omega)
      unfold digit
      generalize n % 10 = k at hm
      have : k = 0 ∨ k = 1 ∨ k = 2 ∨ k = 3 ∨ k = 4 ∨ k = 5 ∨ k = 6 ∨ k = 7 ∨ k = 8 ∨ k = 9 := by omega
      rcases this with rfl | rfl | rfl | rfl | rfl | rfl | rfl | rfl | rfl | rfl <;> exact hexVal_iff.1 rfl
    have := NumberIn.snoc h1 hd (Nat.mod_lt _ (by omega))
    rwa [show n / 10 * 10 + n % 10 = n by omega] at this

theorem fixed_shown {w n : Nat} {x : Str} (h : FixedText w n x) : FixedText w n (padDigits w n) := fixed_pad (fixed_lt h)

theorem trim_zeros (x : Str) : ∃ z, x = ((x.reverse.dropWhile (· == '0')).reverse) ++ List.replicate z '0' := by
  rw [← List.reverse_reverse x]
  generalize x.reverse = y
  rw [List.reverse_reverse]
  induction y with
  | nil => exact ⟨0, rfl⟩
  | cons c y ih =>
    by_cases hc : c = '0'
    · obtain ⟨z, e⟩ := ih
      subst hc
      refine ⟨z + 1, ?_⟩
      rw [List.dropWhile_cons, if_pos (by decide), List.replicate_succ', ← List.append_assoc, ← e, List.reverse_cons]
    · exact ⟨0, by rw [List.dropWhile_cons, if_neg (by simpa using hc)]; simp⟩

theorem numberIn_zero {z n : Nat} (h : NumberIn 10 (List.replicate z '0') n) : n = 0 := by
  induction z generalizing n with
  | zero => exact numberIn_unique h .nil
  | succ z ih =>
    rw [List.replicate_succ'] at h
    obtain ⟨a, b, ha, hb, rfl⟩ := numberIn_append h
    rw [ih ha, numberIn_unique hb (.snoc .nil (hexVal_iff.1 rfl : HexDigit '0' 0) (by omega))]
    simp

theorem secFrac_shown {n : Nat} (h : n < 10 ^ 9) : TomlSecFracText n (tomlFractionText n) := by
  unfold tomlFractionText
  split
  · exact .inl ⟨‹_›, rfl⟩
  · rename_i hn
    obtain ⟨z, e⟩ := trim_zeros (padDigits 9 n)
    generalize ((padDigits 9 n).reverse.dropWhile (· == '0')).reverse = x at e
    have hp := fixed_pad h
    rw [e] at hp
    obtain ⟨a, b, ha, hb, rfl⟩ := numberIn_append hp.2
    have hl := hp.1
    rw [List.length_append, List.length_replicate] at hl
    rw [numberIn_zero hb, Nat.add_zero, List.length_replicate] at *
    refine .inr ⟨x, a, rfl, ?_, ha, ?_⟩
    · rintro rfl
      rw [numberIn_unique ha .nil] at hn
      simp at hn
    · rw [show 10 ^ 9 = 10 ^ z * 10 ^ x.length by rw [← Nat.pow_add]; congr 1; omega, ← Nat.mul_assoc,
        Nat.mul_div_cancel _ (Nat.pow_pos (by omega))]

theorem secFrac_lt {n : Nat} {x : Str} (h : TomlSecFracText n x) : n < 10 ^ 9 := by
  rcases h with ⟨rfl, _⟩ | ⟨ds, k, _, _, hk, rfl⟩
  · decide
  · rw [Nat.div_lt_iff_lt_mul (Nat.pow_pos (by omega)), Nat.mul_comm]
    exact Nat.mul_lt_mul_of_pos_left (numberIn_lt (by omega) hk) (by decide)

theorem day_shown {d : TomlDate} {x : Str} (h : TomlDayText d x) : TomlDayText d d.show := by
  obtain ⟨a, b, c, rfl, ha, hb, hc, hm, hd⟩ := h
  exact ⟨_, _, _, rfl, fixed_shown ha, fixed_shown hb, fixed_shown hc, hm, hd⟩

theorem time_shown {t : TomlTime} {x : Str} (h : TomlTimeText t x) : TomlTimeText t t.show := by
  obtain ⟨a, b, c, f, rfl, ha, hb, hc, hf, h⟩ := h
  exact ⟨_, _, _, _, rfl, fixed_shown ha, fixed_shown hb, fixed_shown hc, secFrac_shown (secFrac_lt hf), h⟩

theorem offset_shown {o : TomlOffset} {x : Str} (h : TomlOffsetText o x) : TomlOffsetText o o.show := by
  cases o with
  | utc => exact .inl rfl
  | minutes m =>
    obtain ⟨sg, h, y, n, z, rfl, hy, hz, h1, h2, ho⟩ := h
    have ha : m.natAbs = h * 60 + n := by omega
    have hh : m.natAbs / 60 = h := by omega
    have hn : m.natAbs % 60 = n := by omega
    refine ⟨_, h, _, n, _, rfl, ?_, ?_, h1, h2, ?_⟩
    · rw [hh]; exact fixed_shown hy
    · rw [hn]; exact fixed_shown hz
    · split
      · exact .inr ⟨rfl, by omega⟩
      · exact .inl ⟨rfl, by omega⟩

theorem moment_shown {t : TomlMoment} {x : Str} (h : TomlMomentText t x) : TomlMomentText t t.show := by
  cases h with
  | day h => simpa [TomlMoment.show] using TomlMomentText.day (day_shown h)
  | time h => simpa [TomlMoment.show] using TomlMomentText.time (time_shown h)
  | both h _ h' => simpa [TomlMoment.show] using TomlMomentText.both (c := 'T') (day_shown h) (by simp) (time_shown h')
  | offset h _ h' ho => simpa [TomlMoment.show] using TomlMomentText.offset (c := 'T') (day_shown h) (by simp) (time_shown h') (offset_shown ho)

theorem day_possible {d : TomlDate} : (∃ x, TomlDayText d x) ↔
    d.year < 10000 ∧ (1 ≤ d.month ∧ d.month ≤ 12) ∧ (1 ≤ d.day ∧ d.day ≤ daysInMonth d.year d.month) := by
  constructor
  · rintro ⟨_, a, b, c, rfl, ha, hb, hc, hm, hd⟩
    exact ⟨fixed_lt ha, hm, hd⟩
  · rintro ⟨hy, hm, hd⟩
    have : daysInMonth d.year d.month ≤ 31 := by
      unfold daysInMonth
      repeat' split
      all_goals omega
    exact ⟨d.show, _, _, _, rfl, fixed_pad hy, fixed_pad (by omega), fixed_pad (by omega), hm, hd⟩

theorem time_possible {t : TomlTime} : (∃ x, TomlTimeText t x) ↔
    t.hour < 24 ∧ t.minute < 60 ∧ t.second ≤ 60 ∧ t.nano < 1000000000 := by
  constructor
  · rintro ⟨_, a, b, c, f, rfl, ha, hb, hc, hf, h1, h2, h3⟩
    exact ⟨h1, h2, h3, secFrac_lt hf⟩
  · rintro ⟨h1, h2, h3, h4⟩
    exact ⟨t.show, _, _, _, _, rfl, fixed_pad (by omega), fixed_pad (by omega), fixed_pad (by omega), secFrac_shown h4, h1, h2, h3⟩

theorem offset_possible {o : TomlOffset} : (∃ x, TomlOffsetText o x) ↔ ∀ m, o = .minutes m → m.natAbs < 1440 := by
  constructor
  · rintro ⟨_, hx⟩ m rfl
    obtain ⟨sg, h, y, n, z, rfl, hy, hz, h1, h2, ho⟩ := hx
    omega
  · intro h
    cases o with
    | utc => exact ⟨_, .inl rfl⟩
    | minutes m =>
      have := h m rfl
      refine ⟨_, if m < 0 then '-' else '+', m.natAbs / 60, _, m.natAbs % 60, _, rfl, fixed_pad (by omega), fixed_pad (by omega), by omega,
        by omega, ?_⟩
      split
      · exact .inr ⟨rfl, by omega⟩
      · exact .inl ⟨rfl, by omega⟩

theorem moment_possible {t : TomlMoment} : (∃ x, TomlMomentText t x) ↔ TomlPossible t := by
  constructor
  · rintro ⟨x, h⟩
    cases h with
    | day h =>
      exact ⟨.inl rfl, fun d e => by cases e; exact day_possible.1 ⟨_, h⟩, fun _ e => (nomatch e), fun _ e => (nomatch e)⟩
    | time h =>
      exact ⟨.inr rfl, fun _ e => (nomatch e), fun _ e => by cases e; exact time_possible.1 ⟨_, h⟩, fun _ e => (nomatch e)⟩
    | both h _ h' =>
      exact ⟨.inl rfl, fun d e => by cases e; exact day_possible.1 ⟨_, h⟩, fun _ e => by cases e; exact time_possible.1 ⟨_, h'⟩,
        fun _ e => (nomatch e)⟩
    | offset h _ h' ho =>
      exact ⟨.inl rfl, fun d e => by cases e; exact day_possible.1 ⟨_, h⟩, fun _ e => by cases e; exact time_possible.1 ⟨_, h'⟩,
        fun _ e => by cases e; exact ⟨rfl, rfl, offset_possible.1 ⟨_, ho⟩⟩⟩
  · rintro ⟨hs, hd, ht, ho⟩
    obtain ⟨d, t, o⟩ := t
    cases o with
    | none =>
      cases d with
      | none =>
        cases t with
        | none => rcases hs with h | h <;> cases h
        | some t =>
          obtain ⟨x, hx⟩ := time_possible.2 (ht t rfl)
          exact ⟨x, .time hx⟩
      | some d =>
        obtain ⟨x, hx⟩ := day_possible.2 (hd d rfl)
        cases t with
        | none => exact ⟨x, .day hx⟩
        | some t =>
          obtain ⟨y, hy⟩ := time_possible.2 (ht t rfl)
          exact ⟨_, .both (c := 'T') hx (by simp) hy⟩
    | some o =>
      obtain ⟨h1, h2, h3⟩ := ho o rfl
      cases d with
      | none => cases h1
      | some d =>
        cases t with
        | none => cases h2
        | some t =>
          obtain ⟨x, hx⟩ := day_possible.2 (hd d rfl)
          obtain ⟨y, hy⟩ := time_possible.2 (ht t rfl)
          obtain ⟨z, hz⟩ := offset_possible.2 h3
          exact ⟨_, .offset (c := 'T') hx (by simp) hy hz⟩

/-! ## Dates and other values -/

/-- How dates begin. -/
def DateBegins (x : Str) : Prop := ∃ a b ds c r, x = a :: b :: (ds ++ c :: r) ∧ a.isDigit = true ∧ b.isDigit = true ∧
  (∀ c ∈ ds, c.isDigit = true) ∧ (c = '-' ∨ c = ':')

theorem day_begins {d : TomlDate} {x : Str} (h : TomlDayText d x) (r : Str) : DateBegins (x ++ r) := by
  obtain ⟨y, m, e, rfl, hy, _⟩ := h
  have hd := fixed_digits hy
  obtain ⟨y1, y2, y3, y4, rfl⟩ : ∃ y1 y2 y3 y4, y = [y1, y2, y3, y4] := by
    match y, hy.1 with
    | [y1, y2, y3, y4], _ => exact ⟨y1, y2, y3, y4, rfl⟩
  exact ⟨y1, y2, [y3, y4], '-', m ++ '-' :: e ++ r, by simp, hd _ (by simp), hd _ (by simp), fun c hc => hd c (List.mem_cons_of_mem _ (List.mem_cons_of_mem _ hc)), .inl rfl⟩

theorem time_begins {t : TomlTime} {x : Str} (h : TomlTimeText t x) (r : Str) : DateBegins (x ++ r) := by
  obtain ⟨y, m, e, f, rfl, hy, _⟩ := h
  have hd := fixed_digits hy
  obtain ⟨y1, y2, rfl⟩ : ∃ y1 y2, y = [y1, y2] := by
    match y, hy.1 with
    | [y1, y2], _ => exact ⟨y1, y2, rfl⟩
  exact ⟨y1, y2, [], ':', m ++ ':' :: (e ++ f) ++ r, by simp, hd _ (by simp), hd _ (by simp), fun c hc => (nomatch hc), .inr rfl⟩

theorem moment_begins {t : TomlMoment} {x : Str} (h : TomlMomentText t x) : DateBegins x := by
  cases h with
  | day h => simpa using day_begins h []
  | time h => simpa using time_begins h []
  | both h _ _ => exact day_begins h _
  | offset h _ _ _ => exact day_begins h _

theorem digit_no_sign {a : Char} {r : Str} (h : a.isDigit = true) : tomlSign (a :: r) = (false, a :: r) := by
  unfold tomlSign
  split
  · rename_i e; cases e; exact absurd h (by decide)
  · rename_i e; cases e; exact absurd h (by decide)
  · rfl

theorem dateBegins_noInt {x : Str} (h : DateBegins x) : tomlInteger x = none := by
  obtain ⟨a, b, ds, c, r, rfl, ha, hb, hd, hc⟩ := h
  unfold tomlInteger
  split
  · rename_i e; cases e; exact absurd hb (by decide)
  · rename_i e; cases e; exact absurd hb (by decide)
  · rename_i e; cases e; exact absurd hb (by decide)
  · rw [digit_no_sign ha]
    dsimp only
    cases hx : tomlDecimal (a :: b :: (ds ++ c :: r)) with
    | none => rfl
    | some k =>
      exfalso
      have := grouped_chars (tomlDecimal_iff.1 hx).1 c (by simp)
      rcases this with h | h
      · have := digitIn_ten.2 h
        rcases hc with rfl | rfl <;> exact absurd this (by decide)
      · rcases hc with rfl | rfl <;> exact absurd h (by decide)

theorem dateBegins_noFloat {S : TomlScalars} {x : Str} (h : DateBegins x) : tomlReadFloat S x = none := by
  obtain ⟨a, b, ds, c, r, rfl, ha, hb, hd, hc⟩ := h
  unfold tomlReadFloat
  rw [digit_no_sign ha]
  dsimp only
  rw [if_neg (fun e => by rw [(List.cons.inj e).1] at ha; exact absurd ha (by decide)), if_neg (fun e => by rw [(List.cons.inj e).1] at ha; exact absurd ha (by decide))]
  have hall : ∀ q ∈ a :: b :: ds, (q.isDigit || q == '_') = true := by
    intro q hq
    have : q.isDigit = true := by
      rcases List.mem_cons.1 hq with rfl | hq
      · exact ha
      · rcases List.mem_cons.1 hq with rfl | hq
        · exact hb
        · exact hd q hq
    rw [this]; rfl
  have hcn : (c.isDigit || c == '_') = false := by rcases hc with rfl | rfl <;> decide
  have hdrop : (a :: b :: (ds ++ c :: r)).dropWhile (fun c => c.isDigit || c == '_') = c :: r := by
    rw [show a :: b :: (ds ++ c :: r) = (a :: b :: ds) ++ c :: r by rfl, List.dropWhile_append_of_pos hall, List.dropWhile_cons, if_neg (by simp [hcn])]
  rw [hdrop]
  have hf : tomlFraction (c :: r) = none := by
    simp only [tomlFraction, tomlExponent]
    rcases hc with rfl | rfl <;> simp
  rw [hf]
  cases tomlDecimal _ <;> rfl

theorem dateBegins_noBool {x : Str} (h : DateBegins x) : x ≠ c!"true" ∧ x ≠ c!"false" ∧ x ≠ c!"null" := by
  obtain ⟨a, b, ds, c, r, rfl, ha, _⟩ := h
  refine ⟨fun e => ?_, fun e => ?_, fun e => ?_⟩ <;> rw [(List.cons.inj e).1] at ha <;> exact absurd ha (by decide)

theorem dateBegins_scalar {S : TomlScalars} {x : Str} (h : DateBegins x) : tomlScalar S x = (S.date x).map .datetime := by
  unfold tomlScalar
  obtain ⟨h1, h2, _⟩ := dateBegins_noBool h
  rw [if_neg h1, if_neg h2, dateBegins_noInt h]
  dsimp only
  rw [dateBegins_noFloat h]

/-! ## The shape of dates -/

theorem digit_word {c : Char} (h : c.isDigit = true) : TomlWordChar c := by
  rw [← tomlTokenChar_iff]
  unfold tomlTokenChar
  simp [Char.isAlphanum, h]

theorem fixed_word {w n : Nat} {x : Str} (h : FixedText w n x) : ∀ c ∈ x, TomlWordChar c := fun c hc => digit_word (fixed_digits h c hc)

theorem word_mark {c : Char} (h : c ∈ ['-', ':', '.', '+', 'Z', 'z', 'T', 't']) : TomlWordChar c := by
  rw [← tomlTokenChar_iff]
  simp only [List.mem_cons, List.not_mem_nil, or_false] at h
  rcases h with rfl | rfl | rfl | rfl | rfl | rfl | rfl | rfl <;> decide

/-- All characters are those of numbers and dates. -/
def WordText (x : Str) : Prop := ∀ c ∈ x, TomlWordChar c

theorem WordText.append {x y : Str} (h : WordText x) (h' : WordText y) : WordText (x ++ y) := fun c hc =>
  (List.mem_append.1 hc).elim (h c) (h' c)

theorem WordText.cons {a : Char} {y : Str} (h : a ∈ ['-', ':', '.', '+', 'Z', 'z', 'T', 't']) (h' : WordText y) : WordText (a :: y) := fun c hc =>
  (List.mem_cons.1 hc).elim (fun e => e ▸ word_mark h) (h' c)

theorem WordText.nil : WordText [] := fun _ h => nomatch h

theorem day_word {d : TomlDate} {x : Str} (h : TomlDayText d x) : WordText x := by
  obtain ⟨a, b, c, rfl, ha, hb, hc, _⟩ := h
  have ha : WordText a := fixed_word ha
  have hb : WordText b := fixed_word hb
  have hc : WordText c := fixed_word hc
  exact ha.append (.cons (by simp) (hb.append (.cons (by simp) hc)))

theorem time_word {t : TomlTime} {x : Str} (h : TomlTimeText t x) : WordText x := by
  obtain ⟨a, b, c, f, rfl, ha, hb, hc, hf, _⟩ := h
  have ha : WordText a := fixed_word ha
  have hb : WordText b := fixed_word hb
  have hc : WordText c := fixed_word hc
  have hf : WordText f := by
    rcases hf with ⟨_, rfl⟩ | ⟨ds, k, rfl, _, hk, _⟩
    · exact .nil
    · exact .cons (by simp) fun c hc => digit_word (digitIn_ten.2 ((numberIn_iff.1 hk).1 c hc))
  exact ha.append (.cons (by simp) (hb.append (.cons (by simp) (hc.append hf))))

theorem offset_word {o : TomlOffset} {x : Str} (h : TomlOffsetText o x) : WordText x := by
  cases o with
  | utc => rcases h with rfl | rfl <;> exact .cons (by simp) .nil
  | minutes m =>
    obtain ⟨sg, _, y, _, z, rfl, hy, hz, _, _, ho⟩ := h
    have hy : WordText y := fixed_word hy
    have hz : WordText z := fixed_word hz
    exact .cons (by rcases ho with ⟨rfl, _⟩ | ⟨rfl, _⟩ <;> simp) (hy.append (.cons (by simp) hz))

theorem day_length {d : TomlDate} {x : Str} (h : TomlDayText d x) : x.length = 10 ∧ x[4]? = some '-' ∧ x[7]? = some '-' := by
  obtain ⟨y, m, e, rfl, hy, hm, he, _⟩ := h
  obtain ⟨y1, y2, y3, y4, rfl⟩ : ∃ y1 y2 y3 y4, y = [y1, y2, y3, y4] := by
    match y, hy.1 with
    | [y1, y2, y3, y4], _ => exact ⟨y1, y2, y3, y4, rfl⟩
  obtain ⟨a1, a2, rfl⟩ : ∃ a1 a2, m = [a1, a2] := by
    match m, hm.1 with
    | [a1, a2], _ => exact ⟨a1, a2, rfl⟩
  obtain ⟨b1, b2, rfl⟩ : ∃ a1 a2, e = [a1, a2] := by
    match e, he.1 with
    | [a1, a2], _ => exact ⟨a1, a2, rfl⟩
  exact ⟨rfl, rfl, rfl⟩

theorem time_head {t : TomlTime} {x : Str} (h : TomlTimeText t x) : ∃ z, x.head? = some z ∧ '0' ≤ z ∧ z ≤ '9' := by
  obtain ⟨a, b, ds, c, r, e, ha, _⟩ := time_begins h []
  rw [List.append_nil] at e
  rw [e]
  exact ⟨a, rfl, isDigit_iff.1 ha⟩

theorem sep_mark {c : Char} (h : c ∈ ['T', 't', ' ']) (hs : c ≠ ' ') : c ∈ ['-', ':', '.', '+', 'Z', 'z', 'T', 't'] := by
  simp only [List.mem_cons, List.not_mem_nil, or_false] at h ⊢
  rcases h with rfl | rfl | rfl <;> simp_all

theorem moment_shape {t : TomlMoment} {x : Str} (h : TomlMomentText t x) : TomlDateShape x := by
  have hne : x ≠ [] := by
    obtain ⟨_, _, _, _, _, rfl, _⟩ := moment_begins h
    exact fun e => nomatch e
  cases h with
  | day h => exact .inl ⟨hne, day_word h⟩
  | time h => exact .inl ⟨hne, time_word h⟩
  | @both d t x y c hd hc ht =>
    by_cases hs : c = ' '
    · subst hs
      obtain ⟨h1, h2, h3⟩ := day_length hd
      obtain ⟨z, hz⟩ := time_head ht
      exact .inr ⟨x, y, z, rfl, h1, day_word hd, h2, h3, time_word ht, hz⟩
    · exact .inl ⟨hne, (day_word hd).append (.cons (sep_mark hc hs) (time_word ht))⟩
  | @offset d t o x y z c hd hc ht ho =>
    by_cases hs : c = ' '
    · subst hs
      obtain ⟨h1, h2, h3⟩ := day_length hd
      obtain ⟨q, hq, hq'⟩ := time_head ht
      refine .inr ⟨x, y ++ z, q, rfl, h1, day_word hd, h2, h3, (time_word ht).append (offset_word ho), ?_, hq'⟩
      cases y with
      | nil => cases hq
      | cons _ _ => exact hq
    · exact .inl ⟨hne, (day_word hd).append (.cons (sep_mark hc hs) ((time_word ht).append (offset_word ho)))⟩

theorem shown_word {t : TomlMoment} {x : Str} (h : TomlMomentText t x) : WordText t.show := by
  cases h with
  | day h => simpa [TomlMoment.show] using day_word (day_shown h)
  | time h => simpa [TomlMoment.show] using time_word (time_shown h)
  | both h _ h' =>
    simpa [TomlMoment.show] using (day_word (day_shown h)).append (.cons (a := 'T') (by simp) (time_word (time_shown h')))
  | offset h _ h' ho =>
    simpa [TomlMoment.show] using
      (day_word (day_shown h)).append (.cons (a := 'T') (by simp) ((time_word (time_shown h')).append (offset_word (offset_shown ho))))

/-! ## The dates of documents -/

theorem rustToml_date {s x : Str} : rustToml.date s = some x ↔ ∃ t, TomlMomentText t s ∧ x = t.show := by
  show (tomlMoment s).map TomlMoment.show = some x ↔ _
  rw [Option.map_eq_some_iff]
  exact ⟨fun ⟨t, h, e⟩ => ⟨t, tomlMoment_iff.1 h, e.symm⟩, fun ⟨t, h, e⟩ => ⟨t, tomlMoment_iff.2 h, e.symm⟩⟩

theorem rustToml_shown {s x : Str} (h : rustToml.date s = some x) : rustToml.date x = some x := by
  obtain ⟨t, ht, rfl⟩ := rustToml_date.1 h
  exact rustToml_date.2 ⟨t, moment_shown ht, rfl⟩

theorem rustToml_kept {s x : Str} (h : rustToml.date s = some x) : TomlScalarKept rustToml x (.datetime x) := by
  have h' := rustToml_shown h
  obtain ⟨t, ht, rfl⟩ := rustToml_date.1 h
  have hb := moment_begins (moment_shown ht)
  refine ⟨?_, fun c hc => tomlTokenChar_iff.2 (shown_word ht c hc), ?_⟩
  · obtain ⟨_, _, _, _, _, e, _⟩ := hb
    rw [e]
    exact fun e => nomatch e
  · rw [dateBegins_scalar hb, h']
    rfl

end Rops
