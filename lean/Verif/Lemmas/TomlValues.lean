import Verif.Lemmas.TomlText
/-!
# The texts of TOML documents: numbers, arrays and inline tables
-/

namespace Rops
open Spec

/-! ## Integers -/

theorem tomlDigits_all {ds : Str} (h : AllDigits ds) (h0 : ds ≠ []) : tomlDigits Char.isDigit ds = some ds := by
  induction ds with
  | nil => exact absurd rfl h0
  | cons c ds ih =>
    have hc := h c (by simp)
    have hds : AllDigits ds := fun c hc => h c (by simp [hc])
    rw [tomlDigits.eq_def]
    cases ds with
    | nil => simp [hc]
    | cons c' ds =>
      have hc' : c' ≠ '_' := by
        rintro rfl
        exact absurd (hds '_' (by simp)) (by decide)
      have := ih hds (by simp)
      split
      · rename_i he; cases he
      · rename_i he; cases he
      · rename_i he; exact absurd (List.cons.inj (List.cons.inj he).2).1 hc'
      · rename_i he
        obtain ⟨rfl, rfl⟩ := List.cons.inj he
        rw [if_pos hc, this]; rfl

theorem digit_range {c : Char} (h : c.isDigit = true) : 48 ≤ c.toNat ∧ c.toNat ≤ 57 := by
  unfold Char.isDigit at h
  simp only [Bool.and_eq_true, decide_eq_true_eq] at h
  exact ⟨UInt32.le_iff_toNat_le.1 h.1, UInt32.le_iff_toNat_le.1 h.2⟩

theorem hexVal_digit {c : Char} (h : c.isDigit = true) : hexVal c = some (c.toNat - 48) := by
  have := digit_range h
  unfold hexVal
  rw [if_pos this]

theorem tomlNat_digits {ds : Str} (h : AllDigits ds) : tomlNat 10 ds = Nat.ofDigitChars 10 ds 0 := by
  unfold tomlNat Nat.ofDigitChars
  suffices ∀ a : Nat, ds.foldl (fun n c => n * 10 + (hexVal c).getD 0) a = ds.foldl (fun n c => 10 * n + (c.toNat - '0'.toNat)) a from this 0
  intro a
  induction ds generalizing a with
  | nil => rfl
  | cons c ds ih =>
    have hc := h c (by simp)
    rw [List.foldl_cons, List.foldl_cons, hexVal_digit hc]
    have : (a * 10 + (some (c.toNat - 48)).getD 0) = 10 * a + (c.toNat - '0'.toNat) := by
      show a * 10 + (c.toNat - 48) = 10 * a + (c.toNat - 48)
      omega
    rw [this]
    exact ih (fun c hc => h c (by simp [hc])) _

theorem tomlNat_toDigits (n : Nat) : tomlNat 10 (Nat.toDigits 10 n) = n := by
  rw [tomlNat_digits (allDigits_toDigits n)]
  have := parseNat_toDigits n
  unfold parseNat at this
  split at this
  · exact Option.some.inj this
  · cases this

theorem tomlDecimal_toDigits (n : Nat) : tomlDecimal (Nat.toDigits 10 n) = some (Nat.toDigits 10 n) := by
  unfold tomlDecimal
  rw [tomlDigits_all (allDigits_toDigits n) (toDigits_ne_nil n)]
  simp only
  rw [if_neg]
  rintro ⟨h1, h2⟩
  by_cases h : n = 0
  · subst h; exact absurd h2 (by decide)
  · exact toDigits_head h h1

theorem tomlSign_digits {ds : Str} (h : AllDigits ds) : tomlSign ds = (false, ds) := by
  unfold tomlSign
  split
  · exact absurd (h '-' (by simp)) (by decide)
  · exact absurd (h '+' (by simp)) (by decide)
  · rfl

theorem tomlInteger_eq {s : Str} (h : ∀ r, s ≠ '0' :: 'x' :: r ∧ s ≠ '0' :: 'o' :: r ∧ s ≠ '0' :: 'b' :: r) :
    tomlInteger s = (tomlDecimal (tomlSign s).2).bind fun ds => tomlFits (tomlSigned (tomlSign s).1 (tomlNat 10 ds)) := by
  rw [tomlInteger.eq_def]
  split
  · exact absurd rfl (h _).1
  · exact absurd rfl (h _).2.1
  · exact absurd rfl (h _).2.2
  · rfl

theorem tomlFits_int64 (n : Int64) : tomlFits n.toInt = some n := by
  unfold tomlFits
  have h1 := Int64.le_toInt n
  have h2 := Int64.toInt_lt n
  rw [if_pos ⟨h1, h2⟩, Int64.ofInt_toInt]

theorem tomlInteger_neg (a : Nat) : tomlInteger ('-' :: Nat.toDigits 10 a) = tomlFits (-(a : Int)) := by
  rw [tomlInteger_eq]
  · rw [show tomlSign ('-' :: Nat.toDigits 10 a) = (true, Nat.toDigits 10 a) from rfl]
    simp only [tomlDecimal_toDigits, Option.bind_some, tomlNat_toDigits]
    exact congrArg tomlFits rfl
  · intro r
    refine ⟨?_, ?_, ?_⟩ <;> (intro h; exact absurd (List.cons.inj h).1 (by decide))

theorem not_based {ds : Str} (hd : AllDigits ds) (c : Char) (hc : c.isDigit = false) (r : Str) : ds ≠ '0' :: c :: r := by
  intro h
  have := hd c (by rw [h]; simp)
  rw [hc] at this
  cases this

theorem tomlInteger_allDigits {ds : Str} (hd : AllDigits ds) (h : tomlDecimal ds = some ds) :
    tomlInteger ds = tomlFits (tomlNat 10 ds) := by
  rw [tomlInteger_eq fun r => ⟨not_based hd 'x' rfl r, not_based hd 'o' rfl r, not_based hd 'b' rfl r⟩, tomlSign_digits hd, h, Option.bind_some]
  exact congrArg tomlFits rfl

theorem tomlInteger_digits (a : Nat) : tomlInteger (Nat.toDigits 10 a) = tomlFits (a : Int) := by
  rw [tomlInteger_allDigits (allDigits_toDigits a) (tomlDecimal_toDigits a), tomlNat_toDigits]

theorem tomlInteger_showInt (n : Int64) : tomlInteger (showInt n) = some n := by
  have hf := tomlFits_int64 n
  unfold showInt
  generalize n.toInt = i at hf
  show tomlInteger (if i < 0 then '-' :: Nat.toDigits 10 i.natAbs else Nat.toDigits 10 i.natAbs) = some n
  by_cases h : i < 0
  · rw [if_pos h, tomlInteger_neg, show -(i.natAbs : Int) = i by omega]
    exact hf
  · rw [if_neg h, tomlInteger_digits, show (i.natAbs : Int) = i by omega]
    exact hf

/-! ## Scalars -/

theorem digit_token {c : Char} (h : c.isDigit = true) : tomlTokenChar c = true := by
  unfold tomlTokenChar Char.isAlphanum
  simp [h]

theorem showInt_chars (n : Int64) : ∀ c ∈ showInt n, tomlTokenChar c = true := by
  intro c h
  unfold showInt at h
  simp only at h
  split at h
  · rcases List.mem_cons.1 h with rfl | h
    · decide
    · exact digit_token (allDigits_toDigits _ c h)
  · exact digit_token (allDigits_toDigits _ c h)

theorem showInt_head (n : Int64) : ∃ c r, showInt n = c :: r ∧ (c = '-' ∨ c.isDigit = true) := by
  unfold showInt
  simp only
  split
  · exact ⟨_, _, rfl, .inl rfl⟩
  · cases h : Nat.toDigits 10 n.toInt.natAbs with
    | nil => exact absurd h (toDigits_ne_nil _)
    | cons c r => exact ⟨c, r, rfl, .inr (allDigits_toDigits n.toInt.natAbs c (by rw [h]; simp))⟩

theorem intKept (S : TomlScalars) (n : Int64) : TomlScalarKept S (showInt n) (.int n) where
  nonempty := by obtain ⟨c, r, h, _⟩ := showInt_head n; rw [h]; simp
  chars := showInt_chars n
  read := by
    obtain ⟨c, r, h, hc⟩ := showInt_head n
    have hw : ∀ c' r', ¬(c' = '-' ∨ c'.isDigit = true) → showInt n ≠ c' :: r' := by
      intro c' r' hn he
      rw [h] at he
      rw [(List.cons.inj he).1] at hc
      exact hn hc
    unfold tomlScalar
    rw [if_neg (hw _ _ (by decide)), if_neg (hw _ _ (by decide)), tomlInteger_showInt]

/-- What may follow a value. -/
structure AfterValue (rest : Str) : Prop where
  token : NotBegins tomlTokenChar rest
  text : AfterText rest
  day : ∀ c r, rest = ' ' :: c :: r → c.isDigit = false

theorem tomlToken_text {t rest : Str} (h : ∀ c ∈ t, tomlTokenChar c = true) (hr : AfterValue rest) :
    tomlToken (t ++ rest) = (t, rest) := by
  unfold tomlToken
  simp only [takeWhile_append_begins h hr.token, dropWhile_append_begins h hr.token]
  split
  · rename_i c r
    rw [hr.day c r rfl, Bool.and_false]
    rfl
  · rfl

/-- The first character of a value. -/
def valueHead (c : Char) : Bool := tomlTokenChar c || c == '"' || c == '\'' || c == '[' || c == '{'

theorem tomlString_head (s : Str) : ∃ c r, tomlString s = c :: r ∧ (c = '"' ∨ c = '\'') := by
  unfold tomlString tomlBasic
  repeat' split
  all_goals first | exact ⟨_, _, rfl, .inl rfl⟩ | exact ⟨_, _, rfl, .inr rfl⟩

theorem inline_head {S : TomlScalars} {v : Toml} (h : TomlSound S v) : ∃ c r, v.inline = c :: r ∧ valueHead c = true := by
  have tok : ∀ {s : Str} {v : Toml}, TomlScalarKept S s v → ∃ c r, s = c :: r ∧ valueHead c = true := by
    intro s v h
    cases s with
    | nil => exact absurd rfl h.nonempty
    | cons c r => exact ⟨c, r, rfl, by unfold valueHead; rw [h.chars c (by simp)]; rfl⟩
  cases v with
  | str s =>
    obtain ⟨c, r, h, hc⟩ := tomlString_head s
    refine ⟨c, r, by rw [Toml.inline, h], ?_⟩
    rcases hc with rfl | rfl <;> decide
  | int n => rw [Toml.inline]; exact tok (intKept S n)
  | float s => rw [Toml.inline]; rw [TomlSound] at h; exact tok h
  | bool b => cases b <;> exact ⟨_, _, by rw [Toml.inline], by decide⟩
  | datetime s => rw [Toml.inline]; rw [TomlSound] at h; exact tok h
  | array l =>
    match l with
    | [] => exact ⟨_, _, by rw [Toml.inline], by decide⟩
    | [t] => exact ⟨_, _, by rw [Toml.inline], by decide⟩
    | t :: u :: r => exact ⟨_, _, by rw [Toml.inline], by decide⟩
  | table m =>
    match m with
    | [] => exact ⟨_, _, by rw [Toml.inline], by decide⟩
    | e :: r => exact ⟨_, _, by rw [Toml.inline], by decide⟩

theorem valueHead_space {c : Char} (h : valueHead c = true) :
    tomlSpace c = false ∧ c ≠ '#' ∧ c ≠ '\n' ∧ c ≠ '\r' ∧ c ≠ ']' ∧ c ≠ '}' := by
  refine ⟨?_, ?_, ?_, ?_, ?_, ?_⟩
  · unfold tomlSpace
    by_cases h1 : c = ' '
    · subst h1; exact absurd h (by decide)
    · by_cases h2 : c = '\t'
      · subst h2; exact absurd h (by decide)
      · simp [h1, h2]
  all_goals (rintro rfl; exact absurd h (by decide))

/-- The scalar at the start of a text. -/
theorem tomlValue_token {S : TomlScalars} {n d : Nat} {t rest : Str} {v : Toml} (h : TomlScalarKept S t v) (hr : AfterValue rest) :
    tomlValue S (n + 1) d (t ++ rest) = some (v, rest) := by
  have ht := tomlToken_text h.chars hr
  have hs := h.read
  obtain ⟨c, t', rfl⟩ : ∃ c t', t = c :: t' := by
    cases t with
    | nil => exact absurd rfl h.nonempty
    | cons c r => exact ⟨c, r, rfl⟩
  have hc := h.chars c (by simp)
  rw [List.cons_append] at ht ⊢
  rw [tomlValue]
  · rw [ht]
    simp only
    rw [hs, if_neg]
    rintro (rfl | rfl) <;> exact absurd hc (by decide)
  · rintro rfl; exact absurd hc (by decide)
  · rintro rfl; exact absurd hc (by decide)

/-! ## Gaps -/

/-- White space and new lines before something else. -/
theorem tomlGap_lines {c : Char} {r : Str} (h1 : tomlSpace c = false) (h2 : c ≠ '#') (h3 : c ≠ '\n') (h4 : c ≠ '\r') {n : Nat}
    (hn : 0 < n) : tomlGap n (c :: r) = some (c :: r) := by
  cases n with
  | zero => omega
  | succ n =>
    have hd : (c :: r).dropWhile tomlSpace = c :: r := List.dropWhile_cons_of_neg (by rw [h1]; decide)
    rw [tomlGap, hd]
    split
    · rename_i h; exact absurd (List.cons.inj h).1 h2
    · have : tomlNewline (c :: r) = none := by
        unfold tomlNewline
        split
        · rename_i h; exact absurd (List.cons.inj h).1 h3
        · rename_i h; exact absurd (List.cons.inj h).1 h4
        · rfl
      rw [this]

theorem tomlGap_indent {c : Char} {r w : Str} (hw : ∀ c ∈ w, tomlSpace c = true) (h1 : tomlSpace c = false) (h2 : c ≠ '#')
    (h3 : c ≠ '\n') (h4 : c ≠ '\r') {n : Nat} (hn : 1 < n) : tomlGap n ('\n' :: (w ++ c :: r)) = some (c :: r) := by
  cases n with
  | zero => omega
  | succ n =>
    rw [tomlGap, List.dropWhile_cons_of_neg (by decide)]
    show tomlGap n (w ++ c :: r) = _
    cases n with
    | zero => omega
    | succ n =>
      have hd : (w ++ c :: r).dropWhile tomlSpace = (c :: r).dropWhile tomlSpace := by
        rw [dropWhile_append_of_all hw]
      have h := tomlGap_lines (r := r) h1 h2 h3 h4 (Nat.succ_pos n)
      rw [tomlGap] at h ⊢
      rw [hd]
      exact h

end Rops
