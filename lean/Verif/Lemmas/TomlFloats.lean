import Verif.Lemmas.TomlValues
import Verif.Lemmas.Decimals
/-!
# The texts of TOML documents: floats
-/

namespace Rops
open Spec

theorem tomlDigits_only {ok : Char → Bool} : ∀ {s ds : Str}, tomlDigits ok s = some ds → ∀ c ∈ s, ok c = true ∨ c = '_'
  | [], _, h, _, _ => by rw [tomlDigits] at h; cases h
  | [a], ds, h, c, hc => by
    rw [tomlDigits] at h
    split at h
    · rename_i ha
      rw [List.mem_singleton.1 hc]
      exact .inl ha
    · cases h
  | a :: b :: r, ds, h, c, hc => by
    rw [tomlDigits.eq_def] at h
    split at h
    · rename_i he; cases he
    · rename_i he; cases he
    · rename_i c' r' he
      cases he
      split at h
      · rename_i ha
        cases hr : tomlDigits ok r with
        | none => rw [hr] at h; cases h
        | some x =>
          rcases List.mem_cons.1 hc with rfl | hc
          · exact .inl ha
          rcases List.mem_cons.1 hc with rfl | hc
          · exact .inr rfl
          exact tomlDigits_only hr c hc
      · cases h
    · rename_i c' r' _ _ he
      cases he
      split at h
      · rename_i ha
        cases hr : tomlDigits ok (b :: r) with
        | none => rw [hr] at h; cases h
        | some x =>
          rcases List.mem_cons.1 hc with rfl | hc
          · exact .inl ha
          exact tomlDigits_only hr c hc
      · cases h

theorem tomlDigits_point {ok : Char → Bool} (hok : ok '.' = false) {s : Str} (h : '.' ∈ s) : tomlDigits ok s = none := by
  cases hd : tomlDigits ok s with
  | none => rfl
  | some ds =>
    rcases tomlDigits_only hd '.' h with h | h
    · rw [hok] at h; cases h
    · cases h

theorem tomlSign_point {s : Str} (h : '.' ∈ s) : '.' ∈ (tomlSign s).2 := by
  unfold tomlSign
  split
  · rcases List.mem_cons.1 h with h | h
    · cases h
    · exact h
  · rcases List.mem_cons.1 h with h | h
    · cases h
    · exact h
  · exact h

/-- What has a point is no integer. -/
theorem tomlInteger_point {s : Str} (h : '.' ∈ s) : tomlInteger s = none := by
  have two : ∀ {a b : Char} {r : Str}, '.' ∈ a :: b :: r → '.' ≠ a → '.' ≠ b → '.' ∈ r := by
    intro a b r h ha hb
    rcases List.mem_cons.1 h with h | h
    · exact absurd h ha
    rcases List.mem_cons.1 h with h | h
    · exact absurd h hb
    exact h
  unfold tomlInteger
  split
  · rw [tomlDigits_point (by decide) (two h (by decide) (by decide))]; rfl
  · rw [tomlDigits_point (by decide) (two h (by decide) (by decide))]; rfl
  · rw [tomlDigits_point (by decide) (two h (by decide) (by decide))]; rfl
  · unfold tomlDecimal
    rw [tomlDigits_point (by decide) (tomlSign_point h)]; rfl

/-- Digits without a point, or with one and digits after it; no zero before other digits. -/
def PlainText (ds fs : Str) : Prop := AllDigits ds ∧ AllDigits fs ∧ ds ≠ [] ∧ ¬(ds.head? = some '0' ∧ 1 < ds.length)

theorem plain_parts (d : Nat) (k : Int) (hd : d ≠ 0) :
    ∃ ds fs, plainDecimal d k = ds ++ (if fs = [] then [] else '.' :: fs) ∧ PlainText ds fs := by
  have hh := toDigits_head hd
  unfold plainDecimal
  by_cases hk : 0 ≤ k
  · refine ⟨Nat.toDigits 10 d ++ List.replicate k.toNat '0', [], by simp [hk], (allDigits_toDigits d).append (allDigits_zeros _),
      (fun _ h => nomatch h), by simp, ?_⟩
    rintro ⟨h, _⟩
    cases e : Nat.toDigits 10 d with
    | nil => exact toDigits_ne_nil d e
    | cons c r => rw [e] at h hh; exact hh h
  · simp only [if_neg hk]
    generalize hn : (-k).toNat = n
    have hn0 : 0 < n := by omega
    generalize hz : List.replicate (n + 1 - (Nat.toDigits 10 d).length) '0' ++ Nat.toDigits 10 d = z
    have hl : n + 1 ≤ z.length := by
      rw [← hz, List.length_append, List.length_replicate]; omega
    have ha : AllDigits z := by rw [← hz]; exact (allDigits_zeros _).append (allDigits_toDigits d)
    have hdl : (z.drop (z.length - n)).length = n := by rw [List.length_drop]; omega
    refine ⟨z.take (z.length - n), z.drop (z.length - n), ?_, ha.take _, ha.drop _, ?_, ?_⟩
    · rw [if_neg]
      intro h
      rw [h] at hdl
      simp only [List.length_nil] at hdl
      omega
    · intro h
      have := congrArg List.length h
      rw [List.length_take] at this
      simp only [List.length_nil] at this
      omega
    · rintro ⟨h1, h2⟩
      rw [List.length_take] at h2
      have : n + 1 - (Nat.toDigits 10 d).length = 0 := by
        have hzl := congrArg List.length hz
        rw [List.length_append, List.length_replicate] at hzl
        omega
      rw [this, List.replicate_zero, List.nil_append] at hz
      rw [← hz, List.head?_take, if_neg (by rw [hz]; omega)] at h1
      exact hh h1

theorem show_parts {v : Nat} (h : IsFloat v) :
    ∃ ds fs, (if v = 0 then c!"0" else plainDecimal (shortest v).1 (shortest v).2) = ds ++ (if fs = [] then [] else '.' :: fs) ∧
      PlainText ds fs := by
  split
  · exact ⟨c!"0", [], rfl, by unfold AllDigits; decide, (fun _ h => nomatch h), by decide, by decide⟩
  · rename_i h0
    refine plain_parts _ _ ?_
    intro hd
    have := shortest_reads h
    rw [hd, f64OfDecimal_zero] at this
    exact h0 this.symm

theorem takeWhile_digits {ds : Str} (h : AllDigits ds) (r : Str) (hr : ∀ c ∈ r.head?, (c.isDigit || c == '_') = false) :
    (ds ++ r).takeWhile (fun c => c.isDigit || c == '_') = ds ∧ (ds ++ r).dropWhile (fun c => c.isDigit || c == '_') = r := by
  induction ds with
  | nil =>
    cases r with
    | nil => exact ⟨rfl, rfl⟩
    | cons c r =>
      have := hr c (by simp)
      rw [List.nil_append, List.takeWhile_cons_of_neg (by rw [this]; decide), List.dropWhile_cons_of_neg (by rw [this]; decide)]
      exact ⟨rfl, rfl⟩
  | cons c ds ih =>
    have hc : (c.isDigit || c == '_') = true := by rw [h c (by simp)]; rfl
    obtain ⟨a, b⟩ := ih (fun c hc => h c (by simp [hc]))
    rw [List.cons_append, List.takeWhile_cons_of_pos (p := fun c => c.isDigit || c == '_') hc,
      List.dropWhile_cons_of_pos (p := fun c => c.isDigit || c == '_') hc, a, b]
    exact ⟨rfl, rfl⟩

theorem tomlSign_text (n : Bool) {ds r : Str} (hd : AllDigits ds) (h0 : ds ≠ []) : tomlSign (signText n ++ (ds ++ r)) = (n, ds ++ r) := by
  cases n with
  | true => rfl
  | false =>
    cases ds with
    | nil => exact absurd rfl h0
    | cons c ds =>
      have hc := hd c (by simp)
      show tomlSign (c :: (ds ++ r)) = (false, c :: (ds ++ r))
      unfold tomlSign
      split
      · rename_i h; rw [(List.cons.inj h).1] at hc; exact absurd hc (by decide)
      · rename_i h; rw [(List.cons.inj h).1] at hc; exact absurd hc (by decide)
      · rfl

theorem tomlReadFloat_text (S : TomlScalars) (n : Bool) {ds fs : Str} (h : PlainText ds fs) (hf : fs ≠ []) :
    tomlReadFloat S (signText n ++ (ds ++ '.' :: fs)) = S.float (signText n ++ (ds ++ '.' :: fs)) := by
  obtain ⟨hd, hfs, h0, hz⟩ := h
  have hnw : ∀ w : Str, '.' ∉ w → ds ++ '.' :: fs ≠ w := by
    intro w hw he
    exact hw (by rw [← he]; simp)
  have ht := takeWhile_digits hd ('.' :: fs) (by simp)
  have ht2 := takeWhile_digits hfs [] (fun _ h => nomatch h)
  rw [List.append_nil] at ht2
  have hfr : tomlFraction ('.' :: fs) = some ('.' :: fs) := by
    rw [tomlFraction, if_pos rfl, ht2.1, ht2.2, tomlDigits_all hfs hf]
    simp [tomlExponent]
  have hdec : tomlDecimal ds = some ds := by
    unfold tomlDecimal
    rw [tomlDigits_all hd h0]
    simp only [if_neg hz]
  unfold tomlReadFloat
  rw [tomlSign_text n hd h0]
  simp only [if_neg (hnw c!"inf" (by decide)), if_neg (hnw c!"nan" (by decide)), ht.1, ht.2, hdec, Option.bind_some, hfr]
  rfl

theorem parse_point_zero (n : Bool) {ds : Str} (hd : AllDigits ds) (h0 : ds ≠ []) :
    F64.parse (signText n ++ (ds ++ c!".0")) = F64.parse (signText n ++ ds) := by
  have h1 : Written ds (f64OfDecimal (Nat.ofDigitChars 10 ds 0) 0) :=
    ⟨ds, [], [], 0, hd, h0, (fun _ h => nomatch h), rfl, end_nil, by simp, by simp⟩
  have h2 : Written (ds ++ c!".0") (f64OfDecimal (Nat.ofDigitChars 10 ds 0) 0) := by
    refine ⟨ds, c!"0", [], 0, hd, h0, by unfold AllDigits; decide, rfl, end_nil, by simp, ?_⟩
    have := ofDigits_zeros_back 1 ds
    rw [show List.replicate 1 '0' = c!"0" from rfl] at this
    rw [this, f64OfDecimal_shift]
    rfl
  rw [h1.parse, h2.parse]

/-- The text that is written for a float is read as this float. -/
theorem float_kept (date : Str → Option Str) {f : F64} (h : InRange f) :
    TomlScalarKept (rustScalars date) (tomlFloat f.show) (.float f.show) := by
  cases f with
  | nan => exact ⟨by decide, by decide, rfl⟩
  | infinite n => cases n <;> exact ⟨by decide, by decide, rfl⟩
  | finite n v =>
    have hp := parse_show h
    obtain ⟨h1, h2⟩ := inRange_finite.1 h
    obtain ⟨ds, fs, hs, ht⟩ := show_parts h1
    have hshow : (F64.finite n v).show = signText n ++ (ds ++ if fs = [] then [] else '.' :: fs) := by rw [F64.show, hs]
    -- the digits after the point that are written
    obtain ⟨fs', hf0, hfd, htext, hparse⟩ : ∃ fs', fs' ≠ [] ∧ AllDigits fs' ∧ tomlFloat (F64.finite n v).show = signText n ++ (ds ++ '.' :: fs') ∧
        F64.parse (signText n ++ (ds ++ '.' :: fs')) = some (.finite n v) := by
      obtain ⟨hd, hfs, h0, hz⟩ := ht
      have hnw : ∀ w : Str, (∀ c ∈ w, c.isDigit = false) → (F64.finite n v).show ≠ w := by
        intro w hw he
        cases ds with
        | nil => exact h0 rfl
        | cons c ds =>
          have : c ∈ w := by rw [← he, hshow]; simp
          have := hw c this
          rw [hd c (by simp)] at this
          cases this
      have e1 := hnw c!"NaN" (by decide)
      have e2 : ¬((F64.finite n v).show = c!"inf" ∨ (F64.finite n v).show = c!"-inf") := by
        rintro (h | h)
        · exact hnw c!"inf" (by decide) h
        · exact hnw c!"-inf" (by decide) h
      unfold tomlFloat
      rw [if_neg e1, if_neg e2]
      by_cases hfs0 : fs = []
      · subst hfs0
        rw [if_pos rfl, List.append_nil] at hshow
        refine ⟨c!"0", by decide, by unfold AllDigits; decide, ?_, ?_⟩
        · rw [if_neg, hshow, List.append_assoc]
          rw [List.contains_iff_mem, hshow]
          intro hm
          rcases List.mem_append.1 hm with hm | hm
          · cases n <;> simp [signText] at hm
          · exact absurd (hd _ hm) (by decide)
        · rw [← hp, hshow]
          exact parse_point_zero n hd h0
      · rw [if_neg hfs0] at hshow
        refine ⟨fs, hfs0, hfs, ?_, ?_⟩
        · rw [if_pos, hshow]
          rw [List.contains_iff_mem, hshow]
          simp
        · rw [← hshow, hp]
    rw [htext]
    have hpoint : '.' ∈ signText n ++ (ds ++ '.' :: fs') := by simp
    refine ⟨by simp, ?_, ?_⟩
    · intro c hc
      rcases List.mem_append.1 hc with hc | hc
      · cases n
        · cases hc
        · rw [List.mem_singleton.1 hc]; decide
      rcases List.mem_append.1 hc with hc | hc
      · exact digit_token (ht.1 c hc)
      rcases List.mem_cons.1 hc with rfl | hc
      · decide
      · exact digit_token (hfd c hc)
    · unfold tomlScalar
      rw [if_neg, if_neg, tomlInteger_point hpoint]
      · simp only
        rw [tomlReadFloat_text _ _ ⟨ht.1, hfd, ht.2.2⟩ hf0]
        show (match rustFloat _ with
          | some f => some (Toml.float f)
          | none => _) = _
        unfold rustFloat
        rw [hparse]
      · intro he; rw [he] at hpoint; exact absurd hpoint (by decide)
      · intro he; rw [he] at hpoint; exact absurd hpoint (by decide)

end Rops
