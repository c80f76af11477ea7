import Verif.Lemmas.TomlDates
/-!
# The text written for a date of TOML is the shortest one
-/

namespace Rops

open Spec

theorem digit_unique {c d : Char} {n : Nat} (h : HexDigit c n) (h' : HexDigit d n) (hn : n < 10) : c = d := by
  rcases h with ⟨_, e⟩ | ⟨_, _⟩
  · rcases h' with ⟨_, e'⟩ | ⟨_, _⟩
    · rw [e, e']
    · omega
  · omega

theorem number_last {x : Str} {c : Char} {n : Nat} (h : NumberIn 10 (x ++ [c]) n) : NumberIn 10 x (n / 10) ∧ HexDigit c (n % 10) := by
  generalize hz : x ++ [c] = z at h
  cases h with
  | nil => simp at hz
  | @snoc ds k d c' hk hd hlt =>
    obtain ⟨h1, h2⟩ := List.append_inj' hz (by simp)
    cases h2
    subst h1
    rw [show (k * 10 + d) / 10 = k by omega, show (k * 10 + d) % 10 = d by omega]
    exact ⟨hk, hd⟩

theorem number_same {x y : Str} {n : Nat} (h : NumberIn 10 x n) (h' : NumberIn 10 y n) (hl : x.length = y.length) : x = y := by
  rw [← List.reverse_reverse x, ← List.reverse_reverse y] at *
  generalize x.reverse = x at *
  generalize y.reverse = y at *
  induction x generalizing y n with
  | nil => cases y with
    | nil => rfl
    | cons => simp at hl
  | cons c x ih => cases y with
    | nil => simp at hl
    | cons d y =>
      simp only [List.reverse_cons] at h h' ⊢
      have h1 := number_last h
      have h2 := number_last h'
      rw [ih h1.1 y h2.1 (by simpa using hl), digit_unique h1.2 h2.2 (by omega)]

theorem fixed_eq {w n : Nat} {x : Str} (h : FixedText w n x) : x = padDigits w n :=
  number_same h.2 (fixed_shown h).2 (h.1.trans (fixed_shown h).1.symm)

theorem number_zeros {x : Str} {n : Nat} (h : NumberIn 10 x n) (m : Nat) : NumberIn 10 (x ++ List.replicate m '0') (n * 10 ^ m) := by
  induction m with
  | zero => simpa using h
  | succ m ih =>
    rw [List.replicate_succ', ← List.append_assoc]
    have := NumberIn.snoc ih (hexVal_iff.1 rfl : HexDigit '0' 0) (by omega)
    rwa [Nat.add_zero, Nat.mul_assoc, ← Nat.pow_succ] at this

theorem trim_more (x : Str) (m : Nat) : (x ++ List.replicate m '0').reverse.dropWhile (· == '0') = x.reverse.dropWhile (· == '0') := by
  induction m with
  | zero => simp
  | succ m ih =>
    rw [List.replicate_succ', ← List.append_assoc, List.reverse_append, List.reverse_singleton, List.singleton_append,
      List.dropWhile_cons, if_pos (by decide), ih]

theorem dropWhile_shorter (p : Char → Bool) (x : Str) : (x.dropWhile p).length ≤ x.length := (List.dropWhile_sublist p).length_le

theorem secFrac_least {n : Nat} {x : Str} (h : TomlSecFracText n x) : (tomlFractionText n).length ≤ x.length ∧
    (x.length = (tomlFractionText n).length → x = tomlFractionText n) := by
  have hn9 := secFrac_lt h
  unfold tomlFractionText
  split
  · exact ⟨Nat.zero_le _, fun e => List.length_eq_zero_iff.1 e⟩
  · rename_i hn
    rcases h with ⟨h, _⟩ | ⟨ds, k, rfl, hd, hk, e⟩
    · exact absurd h hn
    obtain ⟨z, ez⟩ := trim_zeros (padDigits 9 n)
    have hp := fixed_pad hn9
    by_cases h9 : 9 ≤ ds.length
    · have hq : ((padDigits 9 n).reverse.dropWhile (· == '0')).reverse.length ≤ 9 := by
        rw [List.length_reverse]
        refine Nat.le_trans (dropWhile_shorter _ _) ?_
        rw [List.length_reverse, hp.1]
        exact Nat.le_refl _
      generalize ((padDigits 9 n).reverse.dropWhile (· == '0')).reverse = q at *
      refine ⟨by simp only [List.length_cons]; omega, fun el => ?_⟩
      simp only [List.length_cons] at el
      have h9' : ds.length = 9 := by omega
      rw [h9', Nat.mul_div_cancel _ (by decide)] at e
      subst e
      have e1 := number_same hk hp.2 (h9'.trans hp.1.symm)
      have hl := congrArg List.length ez
      rw [List.length_append, List.length_replicate, hp.1] at hl
      rw [show z = 0 by omega, List.replicate_zero, List.append_nil] at ez
      rw [e1, ez]
    · have e2 : n = k * 10 ^ (9 - ds.length) := by
        rw [e, show 10 ^ 9 = 10 ^ (9 - ds.length) * 10 ^ ds.length by rw [← Nat.pow_add]; congr 1; omega, ← Nat.mul_assoc,
          Nat.mul_div_cancel _ (Nat.pow_pos (by omega))]
      have e3 : padDigits 9 n = ds ++ List.replicate (9 - ds.length) '0' := by
        refine number_same hp.2 (e2 ▸ number_zeros hk _) ?_
        rw [hp.1, List.length_append, List.length_replicate]
        omega
      have hq : ((padDigits 9 n).reverse.dropWhile (· == '0')).reverse.length ≤ ds.length := by
        rw [e3, trim_more, List.length_reverse]
        exact Nat.le_trans (dropWhile_shorter _ _) (by simp)
      generalize ((padDigits 9 n).reverse.dropWhile (· == '0')).reverse = q at *
      refine ⟨by simp only [List.length_cons]; omega, fun el => ?_⟩
      simp only [List.length_cons] at el
      rw [(List.append_inj (e3.symm.trans ez) (by omega)).1]

theorem day_eq {d : TomlDate} {x : Str} (h : TomlDayText d x) : x = d.show := by
  obtain ⟨a, b, c, rfl, ha, hb, hc, _⟩ := h
  rw [TomlDate.show, fixed_eq ha, fixed_eq hb, fixed_eq hc]

theorem time_least {t : TomlTime} {x : Str} (h : TomlTimeText t x) : t.show.length ≤ x.length ∧ (x.length = t.show.length → x = t.show) := by
  obtain ⟨a, b, c, f, rfl, ha, hb, hc, hf, _⟩ := h
  have := secFrac_least hf
  rw [TomlTime.show, fixed_eq ha, fixed_eq hb, fixed_eq hc]
  simp only [List.length_append, List.length_cons]
  exact ⟨by omega, fun e => by rw [this.2 (by omega)]⟩

theorem offset_length {o : TomlOffset} {x : Str} (h : TomlOffsetText o x) : x.length = o.show.length := by
  cases o with
  | utc => rcases h with rfl | rfl <;> rfl
  | minutes m =>
    obtain ⟨sg, h, y, n, z, rfl, hy, hz, _⟩ := h
    simp only [TomlOffset.show, List.length_cons, List.length_append, hy.1, hz.1, padDigits_length]

theorem offset_eq {o : TomlOffset} {x a : Str} (h : TomlOffsetText o x) (hz : 'z' ∉ x) (h0 : o = .minutes 0 → ∃ b, a ++ x = b ++ c!"+00:00") :
    x = o.show := by
  cases o with
  | utc =>
    rcases h with rfl | rfl
    · rfl
    · simp at hz
  | minutes m =>
    obtain ⟨sg, h, y, n, z, rfl, hy, hz', h1, h2, ho⟩ := h
    have hh : m.natAbs / 60 = h := by omega
    have hn : m.natAbs % 60 = n := by omega
    rw [TomlOffset.show, hh, hn, fixed_eq hy, fixed_eq hz']
    congr 1
    rcases ho with ⟨rfl, e⟩ | ⟨rfl, e⟩
    · rw [if_neg (by omega)]
    · by_cases hm : m = 0
      · obtain ⟨b, e⟩ := h0 (by rw [hm])
        have := (List.append_inj' e (by simp [hy.1, hz'.1])).2
        simp at this
      · rw [if_pos (by omega)]

theorem day_chars {d : TomlDate} {x : Str} (h : TomlDayText d x) : ∀ c ∈ x, c.isDigit = true ∨ c = '-' := by
  obtain ⟨a, b, e, rfl, ha, hb, hc, _⟩ := h
  intro c hm
  simp only [List.mem_append, List.mem_cons] at hm
  rcases hm with hm | rfl | hm | rfl | hm
  · exact .inl (fixed_digits ha c hm)
  · exact .inr rfl
  · exact .inl (fixed_digits hb c hm)
  · exact .inr rfl
  · exact .inl (fixed_digits hc c hm)

theorem time_chars {t : TomlTime} {x : Str} (h : TomlTimeText t x) : ∀ c ∈ x, c.isDigit = true ∨ c = ':' ∨ c = '.' := by
  obtain ⟨a, b, e, f, rfl, ha, hb, hc, hf, _⟩ := h
  intro c hm
  simp only [List.mem_append, List.mem_cons] at hm
  rcases hm with hm | rfl | hm | rfl | hm | hm
  · exact .inl (fixed_digits ha c hm)
  · exact .inr (.inl rfl)
  · exact .inl (fixed_digits hb c hm)
  · exact .inr (.inl rfl)
  · exact .inl (fixed_digits hc c hm)
  · rcases hf with ⟨_, rfl⟩ | ⟨ds, k, rfl, _, hk, _⟩
    · cases hm
    · rcases List.mem_cons.1 hm with rfl | hm
      · exact .inr (.inr rfl)
      · exact .inl (fixed_digits (w := ds.length) ⟨rfl, hk⟩ c hm)

theorem offset_chars {o : TomlOffset} {x : Str} (h : TomlOffsetText o x) : ∀ c ∈ o.show, c.isDigit = true ∨ c ∈ c!":+-Z" := by
  have h' := offset_shown h
  cases o with
  | utc => intro c hc; exact .inr (by simp [TomlOffset.show] at hc; simp [hc])
  | minutes m =>
    rw [TomlOffset.show]
    intro c hc
    simp only [List.mem_append, List.mem_cons] at hc
    obtain ⟨sg, h, y, n, z, _, hy, hz', h1, h2, ho⟩ := h
    have hh : m.natAbs / 60 = h := by omega
    have hn : m.natAbs % 60 = n := by omega
    rw [hh, hn] at hc
    rcases hc with hc | hc | rfl | hc
    · right; subst hc; split <;> simp
    · exact .inl (fixed_digits (fixed_shown hy) c hc)
    · right; simp
    · exact .inl (fixed_digits (fixed_shown hz') c hc)

/-- The marks of the other ways of writing. -/
theorem digit_mark {c : Char} (h : c.isDigit = true) : c ≠ 't' ∧ c ≠ 'z' ∧ c ≠ ' ' := by
  refine ⟨?_, ?_, ?_⟩ <;> rintro rfl <;> revert h <;> decide

theorem show_marks {t : TomlMoment} {x : Str} (h : TomlMomentText t x) : ∀ c ∈ t.show, c ≠ 't' ∧ c ≠ 'z' ∧ c ≠ ' ' := by
  have hday : ∀ {d : TomlDate} {x : Str}, TomlDayText d x → ∀ c ∈ d.show, c ≠ 't' ∧ c ≠ 'z' ∧ c ≠ ' ' := fun h c hc => by
    rcases day_chars (day_shown h) c hc with h | rfl
    · exact digit_mark h
    · decide
  have htime : ∀ {d : TomlTime} {x : Str}, TomlTimeText d x → ∀ c ∈ d.show, c ≠ 't' ∧ c ≠ 'z' ∧ c ≠ ' ' := fun h c hc => by
    rcases time_chars (time_shown h) c hc with h | rfl | rfl
    · exact digit_mark h
    · decide
    · decide
  have hoff : ∀ {o : TomlOffset} {x : Str}, TomlOffsetText o x → ∀ c ∈ o.show, c ≠ 't' ∧ c ≠ 'z' ∧ c ≠ ' ' := fun h c hc => by
    rcases offset_chars h c hc with h | h
    · exact digit_mark h
    · simp at h
      rcases h with rfl | rfl | rfl | rfl <;> decide
  intro c hc
  cases h with
  | day h => exact hday h c (by simpa [TomlMoment.show] using hc)
  | time h => exact htime h c (by simpa [TomlMoment.show] using hc)
  | both h _ h' =>
    simp [TomlMoment.show] at hc
    rcases hc with hc | rfl | hc
    · exact hday h c hc
    · decide
    · exact htime h' c hc
  | offset h _ h' ho =>
    simp [TomlMoment.show] at hc
    rcases hc with hc | rfl | hc | hc
    · exact hday h c hc
    · decide
    · exact htime h' c hc
    · exact hoff ho c hc

theorem show_least {t : TomlMoment} {x : Str} (h : TomlMomentText t x) : t.show.length ≤ x.length := by
  cases h with
  | day h => rw [day_eq h]; simp [TomlMoment.show]
  | time h => simpa [TomlMoment.show] using (time_least h).1
  | both h _ h' => rw [day_eq h]; simpa [TomlMoment.show] using (time_least h').1
  | offset h _ h' ho =>
    have := (time_least h').1
    have e := offset_length ho
    rw [day_eq h]
    simp [TomlMoment.show]
    omega

theorem sep_eq {c : Char} {x y : Str} (h : c ∈ ['T', 't', ' ']) (ht : 't' ∉ x ++ c :: y) (hs : ' ' ∉ x ++ c :: y) : c = 'T' := by
  simp at h
  rcases h with rfl | rfl | rfl
  · rfl
  · simp at ht
  · simp at hs

theorem show_only {t : TomlMoment} {x : Str} (h : TomlMomentText t x) (hl : x.length ≤ t.show.length) (ht : 't' ∉ x) (hz : 'z' ∉ x)
    (hs : ' ' ∉ x) (h0 : t.offset = some (.minutes 0) → ∃ a, x = a ++ c!"+00:00") : x = t.show := by
  cases h with
  | day h => rw [day_eq h]; simp [TomlMoment.show]
  | time h =>
    have := time_least h
    simp [TomlMoment.show] at hl ⊢
    exact this.2 (by omega)
  | both h hc h' =>
    have := time_least h'
    rw [sep_eq hc ht hs]
    rw [day_eq h] at hl ⊢
    simp [TomlMoment.show] at hl ⊢
    exact this.2 (by omega)
  | @offset d t o x y z c h hc h' ho =>
    have := time_least h'
    have e := offset_length ho
    have eo := offset_eq (a := x ++ c :: y) ho (fun hm => hz (by simp [hm])) (fun e => by
      obtain ⟨b, e⟩ := h0 (by rw [e])
      exact ⟨b, by simpa using e⟩)
    rw [sep_eq hc ht hs]
    rw [day_eq h] at hl ⊢
    simp [TomlMoment.show] at hl ⊢
    rw [this.2 (by omega), eo]

theorem show_zero {t : TomlMoment} (h : t.offset = some (.minutes 0)) : ∃ a, t.show = a ++ c!"+00:00" := by
  rw [TomlMoment.show, h]
  exact ⟨_, (List.append_assoc _ _ _).symm⟩

end Rops
