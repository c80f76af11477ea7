import Verif.Spec.TomlText
import Verif.Lemmas.JsonText
import Verif.Lemmas.Dates
import Verif.Lemmas.Floats
/-!
# The texts of TOML documents: texts, keys and values
-/

namespace Rops
open Spec

/-! ## Texts within double quotes -/

theorem tomlChars_more {lines : Bool} {st st' : TomlState} {c : Char} {o s : Str} {r r' : Str}
    (h : tomlStep lines st c = .more o st') (hr : tomlChars lines st' r = some (s, r')) :
    tomlChars lines st (c :: r) = some (o ++ s, r') := by
  rw [tomlChars.eq_def]
  cases st <;> simp only [h, hr]

theorem hexVal_tomlHex {n : Nat} (h : n < 16) : hexVal (tomlHex n) = some n := by
  have : ∀ m : Fin 16, hexVal (tomlHex m.val) = some m.val := by decide
  exact this ⟨n, h⟩

/-- An escape with digits. -/
theorem tomlChars_unicode {lines : Bool} {c : Char} (h : c.toNat < 256) {r s r' : Str}
    (hr : tomlChars lines .plain r = some (s, r')) :
    tomlChars lines .plain ('\\' :: 'u' :: '0' :: '0' :: tomlHex (c.toNat / 16) :: tomlHex (c.toNat % 16) :: r) =
      some (c :: s, r') := by
  have h1 : hexVal (tomlHex (c.toNat / 16)) = some (c.toNat / 16) := hexVal_tomlHex (by omega)
  have h2 : hexVal (tomlHex (c.toNat % 16)) = some (c.toNat % 16) := hexVal_tomlHex (by omega)
  have hv : c.toNat / 16 * 16 + c.toNat % 16 = c.toNat := by omega
  have hc : c.toNat.isValidChar := c.valid
  have h3 : tomlStep lines (.hex 1 (c.toNat / 16)) (tomlHex (c.toNat % 16)) = .more [c] .plain := by
    simp only [tomlStep, tomlHexStep, h2, hv, if_neg (show ¬(1 < 1) by omega), if_pos hc, Char.ofNat_toNat]
  have h4 : tomlStep lines (.hex 2 0) (tomlHex (c.toNat / 16)) = .more [] (.hex 1 (c.toNat / 16)) := by
    simp [tomlStep, tomlHexStep, h1]
  exact tomlChars_more (o := []) (show _ = _ by cases lines <;> rfl) (tomlChars_more (o := []) (show _ = _ by cases lines <;> rfl)
    (tomlChars_more (o := []) (show _ = TomlStep.more [] (.hex 3 0) by rfl)
    (tomlChars_more (o := []) (show _ = TomlStep.more [] (.hex 2 0) by rfl) (tomlChars_more (o := []) h4 (tomlChars_more (o := [c]) h3 hr)))))

/-- A character that is written as it is. -/
theorem tomlChars_plain {lines : Bool} {c : Char} (h1 : c ≠ '"') (h2 : c ≠ '\\') (h3 : 32 ≤ c.toNat) (h4 : c.toNat ≠ 127) {r s r' : Str}
    (hr : tomlChars lines .plain r = some (s, r')) : tomlChars lines .plain (c :: r) = some (c :: s, r') := by
  have hn : (c == '\n') = false := by
    rw [beq_eq_false_iff_ne]; rintro rfl; exact absurd h3 (by decide)
  have hr' : (c == '\r') = false := by
    rw [beq_eq_false_iff_ne]; rintro rfl; exact absurd h3 (by decide)
  refine tomlChars_more (o := [c]) ?_ hr
  have hp : tomlPrintable c = true := by
    unfold tomlPrintable
    simp [h3, h4]
  simp only [tomlStep, tomlPlainStep, if_neg h1, if_neg h2, hn, hr', Bool.and_false, Bool.false_eq_true, if_false, hp, if_true]

theorem toNat_eq_char {c : Char} {n : Nat} (h : c.toNat = n) : c = Char.ofNat n := by rw [← h, Char.ofNat_toNat]

/-- An escape of one character. -/
theorem tomlChars_escape {lines : Bool} {c e : Char} (h : tomlSimpleEscape e = some c) {r s r' : Str}
    (hr : tomlChars lines .plain r = some (s, r')) : tomlChars lines .plain ('\\' :: e :: r) = some (c :: s, r') :=
  tomlChars_more (o := []) (show _ = TomlStep.more [] .escaped by cases lines <;> rfl)
    (tomlChars_more (o := [c]) (by simp only [tomlStep, tomlEscapeStep, h]) hr)

theorem tomlChars_char {lines : Bool} (c : Char) {r s r' : Str} (hr : tomlChars lines .plain r = some (s, r')) :
    tomlChars lines .plain (tomlEscape lines c ++ r) = some (c :: s, r') := by
  unfold tomlEscape
  split
  · rename_i h; subst h; exact tomlChars_escape (by rfl) hr
  split
  · rename_i h; subst h; exact tomlChars_escape (by rfl) hr
  split
  · rename_i h; rw [toNat_eq_char h]; exact tomlChars_escape (by rfl) hr
  split
  · rename_i h; rw [toNat_eq_char h]; exact tomlChars_escape (by rfl) hr
  split
  · rename_i h
    rw [toNat_eq_char h]
    cases lines
    · exact tomlChars_escape (by rfl) hr
    · exact tomlChars_more (o := ['\n']) (by rfl) hr
  split
  · rename_i h; rw [toNat_eq_char h]; exact tomlChars_escape (by rfl) hr
  split
  · rename_i h; rw [toNat_eq_char h]; exact tomlChars_escape (by rfl) hr
  split
  · exact tomlChars_unicode (by omega) hr
  · rename_i h1 h2 h3 h4 h5 h6 h7 h8
    exact tomlChars_plain h1 h2 (by omega) (by omega) hr

theorem tomlChars_basic (s rest : Str) : tomlChars false .plain (s.flatMap (tomlEscape false) ++ '"' :: rest) = some (s, rest) := by
  induction s with
  | nil => rfl
  | cons c s ih =>
    rw [List.flatMap_cons, List.append_assoc]
    exact tomlChars_char c ih

/-- What does not begin with the character. -/
def NotHead (c : Char) (s : Str) : Prop := s.head? ≠ some c

theorem tomlChars_lines {rest : Str} (hr : NotHead '"' rest) (s : Str) :
    tomlChars true .plain (s.flatMap (tomlEscape true) ++ ('"' :: '"' :: '"' :: rest)) = some (s, rest) := by
  induction s with
  | nil =>
    refine tomlChars_more (o := []) (st' := .quotes 1) rfl (tomlChars_more (o := []) (st' := .quotes 2) rfl
      (tomlChars_more (o := []) (st' := .quotes 3) rfl ?_))
    cases rest with
    | nil => rfl
    | cons c r =>
      have hc : c ≠ '"' := fun h => hr (by rw [h]; rfl)
      rw [tomlChars]
      · simp only [tomlStep, if_neg hc, show ¬(3 < 3) by omega, if_false, Nat.sub_self, List.replicate_zero]
  | cons c s ih =>
    rw [List.flatMap_cons, List.append_assoc]
    exact tomlChars_char c ih

/-! ## Texts within single quotes -/

theorem tomlRawLine_text {s : Str} (h : ∀ c ∈ s, c ≠ '\'' ∧ tomlPrintable c = true) (rest : Str) :
    tomlRawLine (s ++ '\'' :: rest) = some (s, rest) := by
  induction s with
  | nil => rfl
  | cons c s ih =>
    obtain ⟨h1, h2⟩ := h c (by simp)
    rw [List.cons_append, tomlRawLine, if_neg h1, if_pos h2, ih (fun c hc => h c (by simp [hc]))]
    rfl

theorem tomlTriple_cons {c : Char} {s : Str} (h : tomlTriple (c :: s) = false) : tomlTriple s = false := by
  rw [tomlTriple.eq_def] at h
  split at h
  · cases h
  · rename_i heq; cases heq; exact h
  · rename_i heq; cases heq

theorem tomlTriple_replicate {n : Nat} {s : Str} (h : tomlTriple (List.replicate n '\'' ++ s) = false) : tomlTriple s = false := by
  induction n with
  | zero => exact h
  | succ n ih => exact ih (tomlTriple_cons h)

theorem tomlRaw_text {rest : Str} (hr : NotHead '\'' rest) {s : Str} (h : ∀ c ∈ s, c = '\n' ∨ tomlPrintable c = true) {n : Nat}
    (hn : n ≤ 2) (ht : tomlTriple (List.replicate n '\'' ++ s) = false) :
    tomlRaw n (s ++ ('\'' :: '\'' :: '\'' :: rest)) = some (List.replicate n '\'' ++ s, rest) := by
  induction s generalizing n with
  | nil =>
    rw [List.nil_append, tomlRaw, if_pos rfl, if_pos (by omega), tomlRaw, if_pos rfl, if_pos (by omega), tomlRaw, if_pos rfl,
      if_pos (by omega)]
    cases rest with
    | nil => rw [tomlRaw, if_pos (by omega)]; simp
    | cons c r =>
      have hc : c ≠ '\'' := fun h => hr (by rw [h]; rfl)
      rw [tomlRaw, if_neg hc, if_pos (by omega)]
      simp
  | cons c s ih =>
    rw [List.cons_append, tomlRaw]
    by_cases hc : c = '\''
    · subst hc
      have he : List.replicate n '\'' ++ '\'' :: s = List.replicate (n + 1) '\'' ++ s := by
        rw [List.replicate_succ', List.append_assoc]; rfl
      rw [he] at ht ⊢
      have hn' : n + 1 ≤ 2 := by
        by_cases h2 : n = 2
        · subst h2
          simp [List.replicate, tomlTriple] at ht
        · omega
      rw [if_pos rfl, if_pos (by omega)]
      exact ih (fun c hc => h c (by simp [hc])) hn' ht
    · have hcr : c ≠ '\r' := by
        rintro rfl
        rcases h '\r' (by simp) with h | h
        · cases h
        · revert h; decide
      have h0 := ih (fun c hc => h c (by simp [hc])) (n := 0) (by omega) (tomlTriple_cons (tomlTriple_replicate ht))
      rw [if_neg hc, if_neg (by omega), if_neg hcr, if_pos (h c (by simp)), h0]
      rfl

/-! ## Texts -/

/-- What may follow a text in quotes. -/
structure AfterText (rest : Str) : Prop where
  single : NotHead '\'' rest
  double : NotHead '"' rest

theorem literal_chars {s : Str} (h : tomlLiteral s = true) :
    (∀ c ∈ s, c = '\n' ∨ tomlPrintable c = true) ∧ tomlTriple s = false ∧ s ≠ [] := by
  unfold tomlLiteral at h
  simp only [Bool.and_eq_true, Bool.not_eq_true', List.any_eq_false] at h
  refine ⟨fun c hc => ?_, h.2, ?_⟩
  · have := h.1.2 c hc
    unfold tomlControl at this
    unfold tomlPrintable
    by_cases hn : c = '\n'
    · exact .inl hn
    · right
      by_cases ht : c = '\t'
      · simp [ht]
      · have h9 : c.toNat ≠ 9 := fun h => ht (toNat_eq_char h)
        have h10 : c.toNat ≠ 10 := fun h => hn (toNat_eq_char h)
        simp only [Bool.or_eq_true, Bool.and_eq_true, decide_eq_true_eq, bne_iff_ne, ne_eq, h9, not_false_eq_true, and_true, h10,
          beq_iff_eq, not_or] at this
        simp only [Bool.or_eq_true, beq_iff_eq, ht, Bool.and_eq_true, decide_eq_true_eq, bne_iff_ne, ne_eq, this.2, not_false_eq_true,
          and_true, false_or]
        omega
  · rintro rfl
    simp at h

theorem tomlEscape_head (c : Char) : ∃ d x, tomlEscape false c = d :: x ∧ d ≠ '"' := by
  unfold tomlEscape
  split
  · exact ⟨_, _, rfl, by decide⟩
  rename_i h
  repeat' split
  all_goals first | exact ⟨_, _, rfl, by decide⟩ | exact ⟨_, _, rfl, h⟩ | skip
  all_goals exact ⟨_, _, by simp; rfl, by decide⟩

theorem tomlText_string (s : Str) {rest : Str} (hr : AfterText rest) : tomlText (tomlString s ++ rest) = some (s, rest) := by
  unfold tomlString
  split
  · split
    · rename_i hl
      obtain ⟨h1, h2, _⟩ := literal_chars hl
      rw [List.append_assoc, List.append_assoc]
      exact tomlRaw_text hr.single (n := 0) h1 (by omega) h2
    · rw [List.append_assoc, List.append_assoc]
      exact tomlChars_lines hr.double s
  · rename_i hn
    split
    · rename_i hl
      obtain ⟨h1, h2, h3⟩ := literal_chars hl
      have h1' : ∀ c ∈ s, tomlPrintable c = true := fun c hc => (h1 c hc).resolve_left fun h => hn (by
        rw [List.contains_iff_mem, ← h]; exact hc)
      split
      · rw [List.append_assoc, List.append_assoc]
        have hf : tomlFirstLine (s ++ ('\'' :: '\'' :: '\'' :: rest)) = s ++ ('\'' :: '\'' :: '\'' :: rest) := by
          cases s with
          | nil => exact absurd rfl h3
          | cons c s =>
            have hc := h1' c (by simp)
            have c1 : c ≠ '\n' := by rintro rfl; revert hc; decide
            have c2 : c ≠ '\r' := by rintro rfl; revert hc; decide
            unfold tomlFirstLine tomlNewline
            split
            · rename_i h; exact absurd (List.cons.inj h).1 c1
            · rename_i h; exact absurd (List.cons.inj h).1 c2
            · rfl
        show tomlRaw 0 (tomlFirstLine (s ++ ('\'' :: '\'' :: '\'' :: rest))) = _
        rw [hf]
        exact tomlRaw_text hr.single (n := 0) h1 (by omega) h2
      · rename_i hs
        have h4 : ∀ c ∈ s, c ≠ '\'' ∧ tomlPrintable c = true := fun c hc => ⟨by
          rintro rfl; exact hs (by rw [List.contains_iff_mem]; exact hc), h1' c hc⟩
        cases s with
        | nil => exact absurd rfl h3
        | cons c s =>
          have := tomlRawLine_text h4 rest
          rw [List.cons_append, List.append_assoc]
          show tomlText ('\'' :: c :: (s ++ '\'' :: rest)) = _
          have hc := (h4 c (by simp)).1
          rw [tomlText]
          · exact this
          · intro r he; exact absurd (List.cons.inj he).1 hc
    · unfold tomlBasic
      rw [List.cons_append, List.append_assoc]
      show tomlText ('"' :: (s.flatMap (tomlEscape false) ++ '"' :: rest)) = _
      have := tomlChars_basic s rest
      rw [tomlText]
      · exact this
      · intro r he
        cases s with
        | nil =>
          cases rest with
          | nil => cases he
          | cons a b => cases he; exact absurd rfl hr.double
        | cons c s =>
          obtain ⟨d, x, hx, hd⟩ := tomlEscape_head c
          rw [List.flatMap_cons, hx] at he
          exact hd (List.cons.inj he).1

/-! ## Keys -/

theorem tomlSimpleKey_key (k : Str) {rest : Str} (hr : NotBegins tomlBare rest) : tomlSimpleKey (tomlKey k ++ rest) = some (k, rest) := by
  unfold tomlKey
  split
  · rename_i h
    simp only [Bool.and_eq_true, Bool.not_eq_true', List.isEmpty_eq_false_iff, List.all_eq_true] at h
    have ht := takeWhile_append_begins h.2 hr
    have hd := dropWhile_append_begins h.2 hr
    obtain ⟨hne, hall⟩ := h
    cases k with
    | nil => exact absurd rfl hne
    | cons c k =>
      have hc := hall c (by simp)
      rw [tomlSimpleKey.eq_def]
      split
      · rename_i he; rw [(List.cons.inj he).1] at hc; exact absurd hc (by decide)
      · rename_i he; rw [(List.cons.inj he).1] at hc; exact absurd hc (by decide)
      · rw [ht, hd]; simp
  · unfold tomlBasic
    rw [List.cons_append, List.append_assoc]
    exact tomlChars_basic k rest

/-- The first character of a key. -/
theorem tomlKey_head (k : Str) : ∃ c r, tomlKey k = c :: r ∧ (tomlBare c = true ∨ c = '"') := by
  unfold tomlKey
  split
  · rename_i h
    simp only [Bool.and_eq_true, Bool.not_eq_true', List.isEmpty_eq_false_iff, List.all_eq_true] at h
    cases k with
    | nil => exact absurd rfl h.1
    | cons c k => exact ⟨c, k, rfl, .inl (h.2 c (by simp))⟩
  · exact ⟨'"', _, rfl, .inr rfl⟩

theorem keyHead_notSpace {c : Char} (h : tomlBare c = true ∨ c = '"') : tomlSpace c = false := by
  rcases h with h | rfl
  · unfold tomlSpace
    by_cases h1 : c = ' '
    · subst h1; revert h; decide
    · by_cases h2 : c = '\t'
      · subst h2; revert h; decide
      · simp [h1, h2]
  · decide

theorem dropWhile_key (k rest : Str) : (tomlKey k ++ rest).dropWhile tomlSpace = tomlKey k ++ rest := by
  obtain ⟨c, r, h, hc⟩ := tomlKey_head k
  rw [h, List.cons_append, List.dropWhile_cons_of_neg (by rw [keyHead_notSpace hc]; decide)]

/-- What may follow a key: not a character of keys, nor a dot. -/
structure AfterKey (rest : Str) : Prop where
  bare : NotBegins tomlBare rest
  dot : NotHead '.' (rest.dropWhile tomlSpace)

theorem tomlReadPath_path {rest : Str} (hr : AfterKey rest) {p : List Str} (hp : p ≠ []) {n : Nat} (hn : p.length ≤ n) {w : Str}
    (hw : ∀ c ∈ w, tomlSpace c = true) :
    tomlReadPath n (w ++ (tomlPath p ++ rest)) = some (p, rest.dropWhile tomlSpace) := by
  induction p generalizing n w with
  | nil => exact absurd rfl hp
  | cons k p ih =>
    cases n with
    | zero => simp at hn
    | succ n =>
      cases p with
      | nil =>
        have h1 : (w ++ (tomlPath [k] ++ rest)).dropWhile tomlSpace = tomlKey k ++ rest := by
          rw [dropWhile_append_of_all hw]; exact dropWhile_key k rest
        rw [tomlReadPath, h1, tomlSimpleKey_key k hr.bare]
        simp only
        have hd := hr.dot
        unfold NotHead at hd
        split
        · rename_i h; rw [h] at hd; exact absurd rfl hd
        · rfl
      | cons k' p =>
        have h1 : (w ++ (tomlPath (k :: k' :: p) ++ rest)).dropWhile tomlSpace = tomlKey k ++ ('.' :: (tomlPath (k' :: p) ++ rest)) := by
          rw [dropWhile_append_of_all hw, tomlPath, List.append_assoc]; exact dropWhile_key k _
        have h2 := ih (by simp) (n := n) (by simpa using hn) (w := []) (by simp)
        rw [List.nil_append] at h2
        rw [tomlReadPath, h1, tomlSimpleKey_key k (by intro c hc; cases hc; decide)]
        simp only [List.dropWhile_cons_of_neg (show ¬(tomlSpace '.' = true) by decide), h2]

theorem tomlReadKey_path {S : TomlScalars} {rest : Str} (hr : AfterKey rest) {p : List Str} (hp : p ≠ []) (hl : p.length < S.limit)
    {w : Str} (hw : ∀ c ∈ w, tomlSpace c = true) :
    tomlReadKey S (w ++ (tomlPath p ++ rest)) = some (p, rest.dropWhile tomlSpace) := by
  have hlen : p.length ≤ (w ++ (tomlPath p ++ rest)).length + 1 := by
    have : ∀ p : List Str, p.length ≤ (tomlPath p).length + 1 := by
      intro p
      induction p with
      | nil => simp
      | cons k p ih =>
        cases p with
        | nil => simp
        | cons k' p => rw [tomlPath]; simp only [List.length_append, List.length_cons] at ih ⊢; omega
    have := this p
    simp only [List.length_append]
    omega
  unfold tomlReadKey
  rw [tomlReadPath_path hr hp hlen hw]
  simp only [if_pos hl]

end Rops
