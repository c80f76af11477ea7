import Verif.Spec.TomlGrammar
import Verif.Lemmas.TomlText
/-!
# The grammar of TOML: texts
-/

namespace Rops
open Spec

theorem tomlPrintable_iff {c : Char} : tomlPrintable c = true ↔ TomlNonControl c := by
  unfold tomlPrintable TomlNonControl
  simp

theorem tomlSpace_iff {c : Char} : tomlSpace c = true ↔ c = ' ' ∨ c = '\t' := by
  unfold tomlSpace
  simp

theorem tomlNewline_iff {s r : Str} : tomlNewline s = some r ↔ ∃ e, TomlNl e ∧ s = e ++ r := by
  constructor
  · intro h
    unfold tomlNewline at h
    split at h
    · cases h; exact ⟨['\n'], .inl rfl, rfl⟩
    · cases h; exact ⟨['\r', '\n'], .inr rfl, rfl⟩
    · cases h
  · rintro ⟨e, rfl | rfl, rfl⟩ <;> rfl

/-! ## Numbers to a base -/

theorem tomlNat_snoc (base : Nat) (ds : Str) (c : Char) : tomlNat base (ds ++ [c]) = tomlNat base ds * base + (hexVal c).getD 0 := by
  unfold tomlNat
  rw [List.foldl_append]
  rfl

theorem numberIn_iff {base : Nat} {ds : Str} {n : Nat} : NumberIn base ds n ↔ (∀ c ∈ ds, DigitIn base c) ∧ n = tomlNat base ds := by
  constructor
  · intro h
    induction h with
    | nil => exact ⟨fun _ h => (nomatch h), rfl⟩
    | snoc _ hd hl ih =>
      refine ⟨fun c hc => ?_, ?_⟩
      · rcases List.mem_append.1 hc with hc | hc
        · exact ih.1 c hc
        · obtain rfl := List.mem_singleton.1 hc
          exact ⟨_, hd, hl⟩
      · rw [tomlNat_snoc, hexVal_iff.2 hd, ← ih.2]
        rfl
  · rintro ⟨h, rfl⟩
    rw [← List.reverse_reverse ds] at h ⊢
    generalize ds.reverse = ds at h ⊢
    induction ds with
    | nil => exact .nil
    | cons c ds ih =>
      obtain ⟨d, hd, hl⟩ := h c (by simp)
      rw [List.reverse_cons] at h ⊢
      rw [tomlNat_snoc, hexVal_iff.2 hd]
      exact .snoc (ih fun c hc => h c (by simp only [List.mem_append, hc, true_or])) hd hl

theorem hexDigit_lt {c : Char} {d : Nat} (h : HexDigit c d) : d < 16 := by
  rcases h with ⟨h, _⟩ | ⟨_, h, _⟩ <;> omega

theorem numberIn_lt {base : Nat} {ds : Str} {n : Nat} (hb : 0 < base) (h : NumberIn base ds n) : n < base ^ ds.length := by
  induction h with
  | nil => simp
  | @snoc ds n d c _ _ hl ih =>
    rw [List.length_append, List.length_singleton, Nat.pow_succ]
    have h1 : (n + 1) * base ≤ base ^ ds.length * base := Nat.mul_le_mul_right _ ih
    rw [Nat.succ_mul] at h1
    omega

/-! ## Escapes -/

theorem tomlSimpleEscape_iff {l x : Char} : tomlSimpleEscape l = some x ↔ ∃ n, (l, n) ∈ tomlLetters ∧ x = Char.ofNat n := by
  constructor
  · intro h
    unfold tomlSimpleEscape at h
    repeat' split at h
    all_goals first | (rename_i hl; subst hl; cases h; simp [tomlLetters]; done) | (cases h; done)
  · rintro ⟨n, h, rfl⟩
    simp only [tomlLetters, List.mem_cons, Prod.mk.injEq, List.not_mem_nil, or_false] at h
    rcases h with ⟨rfl, rfl⟩ | ⟨rfl, rfl⟩ | ⟨rfl, rfl⟩ | ⟨rfl, rfl⟩ | ⟨rfl, rfl⟩ | ⟨rfl, rfl⟩ | ⟨rfl, rfl⟩ <;> decide

theorem isValidChar_iff {v : Nat} : v.isValidChar ↔ v < 0xD800 ∨ (0xE000 ≤ v ∧ v < 0x110000) := by
  unfold Nat.isValidChar
  omega

/-- The digits of an escape. -/
theorem tomlChars_hex {lines : Bool} {h : Str} (hh : ∀ c ∈ h, DigitIn 16 c) (hne : h ≠ []) {v : Nat}
    (hv : (h.foldl (fun n c => n * 16 + (hexVal c).getD 0) v).isValidChar) {r s r' : Str} (hr : tomlChars lines .plain r = some (s, r')) :
    tomlChars lines (.hex h.length v) (h ++ r) = some (Char.ofNat (h.foldl (fun n c => n * 16 + (hexVal c).getD 0) v) :: s, r') := by
  induction h generalizing v with
  | nil => exact absurd rfl hne
  | cons c h ih =>
    obtain ⟨d, hd, _⟩ := hh c (.head _)
    have hd := hexVal_iff.2 hd
    rw [List.foldl_cons, hd] at hv ⊢
    cases h with
    | nil =>
      refine tomlChars_more (o := [Char.ofNat (v * 16 + d)]) (st' := .plain) ?_ hr
      simp only [tomlStep, tomlHexStep, hd, List.length_singleton, if_neg (show ¬(1 < 1) by omega)]
      exact if_pos hv
    | cons c' h =>
      refine tomlChars_more (o := []) (st' := .hex (c' :: h).length (v * 16 + d)) ?_
        (ih (fun c hc => hh c (.tail _ hc)) (by simp) hv)
      simp only [tomlStep, tomlHexStep, hd, List.length_cons]
      rw [if_pos (by omega)]
      rfl

theorem tomlChars_escaped {lines : Bool} {c : Char} {e : Str} (he : TomlEscaped c e) {r s r' : Str}
    (hr : tomlChars lines .plain r = some (s, r')) : ∃ e', e = '\\' :: e' ∧ tomlChars lines .escaped (e' ++ r) = some (c :: s, r') := by
  cases he with
  | @letter l n hl =>
    refine ⟨_, rfl, tomlChars_more (o := [Char.ofNat n]) ?_ hr⟩
    simp only [tomlStep, tomlEscapeStep, tomlSimpleEscape_iff.2 ⟨n, hl, rfl⟩]
  | @four h v hv hl hok =>
    refine ⟨_, rfl, tomlChars_more (o := []) (st' := .hex 4 0) (by cases lines <;> rfl) ?_⟩
    have hlt := numberIn_lt (by omega) hv
    rw [hl] at hlt
    obtain ⟨h1, rfl⟩ := numberIn_iff.1 hv
    rw [← hl]
    exact tomlChars_hex h1 (by rintro rfl; cases hl) (isValidChar_iff.2 (by unfold tomlNat at *; omega)) hr
  | @eight h v hv hl hok =>
    refine ⟨_, rfl, tomlChars_more (o := []) (st' := .hex 8 0) (by cases lines <;> rfl) ?_⟩
    obtain ⟨h1, rfl⟩ := numberIn_iff.1 hv
    rw [← hl]
    exact tomlChars_hex h1 (by rintro rfl; cases hl) (isValidChar_iff.2 hok) hr

/-! ## Texts in double quotes are read -/

theorem tomlPlainStep_plain {lines : Bool} {c : Char} (hc : TomlNonControl c) (h1 : c ≠ '"') (h2 : c ≠ '\\') :
    tomlPlainStep lines c = .more [c] .plain := by
  have hp := tomlPrintable_iff.2 hc
  have hn : (c == '\n') = false := by
    rw [beq_eq_false_iff_ne]; rintro rfl; exact absurd hp (by decide)
  have hr : (c == '\r') = false := by
    rw [beq_eq_false_iff_ne]; rintro rfl; exact absurd hp (by decide)
  simp only [tomlPlainStep, if_neg h1, if_neg h2, hn, hr, Bool.and_false, Bool.false_eq_true, if_false, hp, if_true]

theorem tomlChars_basicBody {s x : Str} (h : TomlBasicBody s x) (rest : Str) :
    tomlChars false .plain (x ++ '"' :: rest) = some (s, rest) := by
  induction h with
  | nil => rfl
  | @plain c s x hc h1 h2 _ ih => exact tomlChars_more (o := [c]) (tomlPlainStep_plain hc h1 h2) ih
  | @escaped c e s x he _ ih =>
    obtain ⟨e', rfl, h'⟩ := tomlChars_escaped he ih
    rw [List.append_assoc]
    exact tomlChars_more (o := []) (st' := .escaped) rfl h'

/-- The state after so many double quotes. -/
def quotesState : Nat → TomlState
  | 0 => .plain
  | n => .quotes n

theorem tomlStep_quotes {n : Nat} {c : Char} (hn : n < 3) (hc : c ≠ '"') :
    tomlStep true (quotesState n) c = (tomlPlainStep true c).after (List.replicate n '"') := by
  cases n with
  | zero =>
    change tomlPlainStep true c = _
    cases tomlPlainStep true c <;> rfl
  | succ n =>
    simp only [quotesState, tomlStep, if_neg hc, if_pos hn]

theorem tomlStep_quote {n : Nat} (hn : n < 5) : tomlStep true (quotesState n) '"' = .more [] (.quotes (n + 1)) := by
  cases n with
  | zero => rfl
  | succ n =>
    simp only [quotesState, tomlStep, if_true, if_pos hn]

theorem tomlBlank_begins {g : Str} (h : TomlBlank g) (lines : Bool) {s : Str} (hs : NotBlank s) (hne : s ≠ []) (hl : lines = true) :
    tomlChars lines (.fold true) (g ++ s) = tomlChars lines .plain s := by
  induction h with
  | nil =>
    cases s with
    | nil => exact absurd rfl hne
    | cons c r =>
      obtain ⟨h1, h2, h3, h4⟩ := hs c r rfl
      have hsp : tomlSpace c = false := Bool.eq_false_iff.2 fun h => by rcases tomlSpace_iff.1 h with h | h <;> contradiction
      rw [List.nil_append, tomlChars, tomlChars]
      · have : tomlStep lines (.fold true) c = tomlStep lines .plain c := by
          simp only [tomlStep, hsp, Bool.false_eq_true, if_false, if_neg h3, if_neg h4, if_true]
        rw [this]
  | @ws c x hc _ ih =>
    rw [List.cons_append, tomlChars]
    have : tomlStep lines (.fold true) c = .more [] (.fold true) := by
      simp only [tomlStep, tomlSpace_iff.2 hc, if_true]
    rw [this]
    simp only [ih, List.nil_append]
    cases tomlChars lines .plain s <;> rfl
  | nl he _ ih =>
    subst hl
    rcases he with rfl | rfl
    · rw [List.append_assoc, List.cons_append, tomlChars]
      change (match tomlChars true (.fold true) ([] ++ _) with | some (s, r) => some ([] ++ s, r) | none => none) = _
      rw [List.nil_append, ih]
      cases tomlChars true .plain s <;> rfl
    · rw [List.append_assoc, List.cons_append, List.cons_append, tomlChars]
      change (match tomlChars true (.return true) ('\n' :: ([] ++ _)) with | some (s, r) => some ([] ++ s, r) | none => none) = _
      rw [tomlChars]
      change (match (match tomlChars true (.fold true) ([] ++ _) with | some (s, r) => some ([] ++ s, r) | none => none) with | some (s, r) => some ([] ++ s, r) | none => none) = _
      rw [List.nil_append, ih]
      cases tomlChars true .plain s <;> rfl

theorem tomlBlank_of_ws {w : Str} (h : TomlWs w) : TomlBlank w := by
  induction w with
  | nil => exact .nil
  | cons c w ih => exact .ws (h c (.head _)) (ih fun c hc => h c (.tail _ hc))

theorem tomlChars_foldNl {e : Str} (he : TomlNl e) {st : TomlState} (hst : st = .escaped ∨ st = .fold false) {x r' s : Str}
    (hr : tomlChars true (.fold true) x = some (s, r')) : tomlChars true st (e ++ x) = some (s, r') := by
  rcases he with rfl | rfl
  · exact tomlChars_more (o := []) (st' := .fold true) (by rcases hst with rfl | rfl <;> rfl) hr
  · exact tomlChars_more (o := []) (st' := .return true) (by rcases hst with rfl | rfl <;> rfl)
      (tomlChars_more (o := []) (st' := .fold true) rfl hr)

theorem tomlChars_foldWs {w e : Str} (hw : TomlWs w) (he : TomlNl e) {x r' s : Str}
    (hr : tomlChars true (.fold true) x = some (s, r')) : tomlChars true (.fold false) (w ++ (e ++ x)) = some (s, r') := by
  induction w with
  | nil => exact tomlChars_foldNl he (.inr rfl) hr
  | cons c w ih =>
    refine tomlChars_more (o := []) (st' := .fold false) ?_ (ih fun c hc => hw c (.tail _ hc))
    simp only [tomlStep, tomlSpace_iff.2 (hw c (.head _)), if_true]

theorem tomlChars_fold {w e : Str} (hw : TomlWs w) (he : TomlNl e) {x r' s : Str}
    (hr : tomlChars true (.fold true) x = some (s, r')) : tomlChars true .escaped (w ++ (e ++ x)) = some (s, r') := by
  cases w with
  | nil => exact tomlChars_foldNl he (.inl rfl) hr
  | cons c w =>
    refine tomlChars_more (o := []) (st' := .fold false) ?_ (tomlChars_foldWs (fun c hc => hw c (.tail _ hc)) he hr)
    rcases hw c (.head _) with rfl | rfl <;> rfl

theorem tomlChars_linesBody {n : Nat} {s x : Str} (h : TomlLinesBody n s x) (hn : n < 3) {rest : Str} (hr : NotHead '"' rest) :
    tomlChars true (quotesState n) (x ++ ('"' :: '"' :: '"' :: rest)) = some (List.replicate n '"' ++ s, rest) := by
  induction h with
  | @nil n =>
    refine tomlChars_more (o := []) (tomlStep_quote (by omega)) (tomlChars_more (o := []) (tomlStep_quote (n := n + 1) (by omega))
      (tomlChars_more (o := []) (tomlStep_quote (n := n + 2) (by omega)) ?_))
    cases rest with
    | nil => rw [tomlChars, if_pos (by omega)]; simp
    | cons c r =>
      have hc : c ≠ '"' := fun h => hr (by rw [h]; rfl)
      rw [tomlChars]
      simp only [tomlStep, if_neg hc, show ¬(n + 2 + 1 < 3) by omega, if_false]
      simp
  | @quote n s x h2 _ ih =>
    have := tomlChars_more (o := []) (tomlStep_quote (n := n) (by omega)) (ih (by omega))
    rw [List.cons_append, this, List.replicate_succ', List.append_assoc]
    rfl
  | @plain n c s x hc h1 h2 _ ih =>
    have := tomlChars_more (o := List.replicate n '"' ++ [c]) (st := quotesState n)
      (by rw [tomlStep_quotes hn h1, tomlPlainStep_plain hc h1 h2]; rfl) (ih (by omega))
    rw [List.cons_append, this, List.append_assoc]
    rfl
  | @newline n e s x he _ ih =>
    rcases he with rfl | rfl
    · have := tomlChars_more (o := List.replicate n '"' ++ ['\n']) (st := quotesState n) (c := '\n') (st' := .plain)
        (by rw [tomlStep_quotes hn (by decide)]; rfl) (ih (by omega))
      rw [List.append_assoc, List.cons_append, List.nil_append, this, List.append_assoc]
      rfl
    · have := tomlChars_more (o := List.replicate n '"' ++ []) (st := quotesState n) (c := '\r') (st' := .return false)
        (by rw [tomlStep_quotes hn (by decide)]; rfl) (tomlChars_more (o := ['\n']) (c := '\n') rfl (ih (by omega)))
      rw [List.append_assoc, List.cons_append, List.cons_append, List.nil_append, this, List.append_assoc]
      rfl
  | @escaped n c e s x he _ ih =>
    obtain ⟨e', rfl, h'⟩ := tomlChars_escaped he (ih (by omega))
    have := tomlChars_more (o := List.replicate n '"' ++ []) (st := quotesState n) (c := '\\') (st' := .escaped)
      (by rw [tomlStep_quotes hn (by decide)]; rfl) h'
    rw [List.append_assoc, List.cons_append, this, List.append_nil]
    rfl
  | @fold n w e g s x hw he hg hx _ ih =>
    have hs : NotBlank (x ++ ('"' :: '"' :: '"' :: rest)) := by
      intro c r h
      cases x with
      | nil => cases h; decide
      | cons d x => cases h; exact hx _ _ rfl
    have h1 := (tomlBlank_begins hg true hs (by simp) rfl).trans (ih (by omega))
    have := tomlChars_more (o := List.replicate n '"' ++ []) (st := quotesState n) (c := '\\') (st' := .escaped)
      (by rw [tomlStep_quotes hn (by decide)]; rfl) (tomlChars_fold hw he h1)
    simp only [List.cons_append, List.append_assoc] at this ⊢
    rw [this]
    rfl

/-! ## What is read is a text in double quotes -/

/-- What was read to get to a state, since the last character that is known. -/
inductive Pending (lines : Bool) : TomlState → Str → Prop
  | plain : Pending lines .plain []
  | escaped : Pending lines .escaped ['\\']
  | four {h : Str} {v : Nat} : NumberIn 16 h v → h.length < 4 → Pending lines (.hex (4 - h.length) v) ('\\' :: 'u' :: h)
  | eight {h : Str} {v : Nat} : NumberIn 16 h v → h.length < 8 → Pending lines (.hex (8 - h.length) v) ('\\' :: 'U' :: h)
  | foldNo {w : Str} : lines = true → TomlWs w → Pending lines (.fold false) ('\\' :: w)
  | foldYes {w e g : Str} : lines = true → TomlWs w → TomlNl e → TomlBlank g → Pending lines (.fold true) ('\\' :: (w ++ (e ++ g)))
  | ret : lines = true → Pending lines (.return false) ['\r']
  | retNo {w : Str} : lines = true → TomlWs w → Pending lines (.return true) ('\\' :: (w ++ ['\r']))
  | retYes {w e g : Str} : lines = true → TomlWs w → TomlNl e → TomlBlank g →
    Pending lines (.return true) ('\\' :: (w ++ (e ++ (g ++ ['\r']))))
  | quotes {n : Nat} : lines = true → 1 ≤ n → n ≤ 5 → Pending lines (.quotes n) (List.replicate n '"')

/-- What is between the quotes. -/
def TomlBody : Bool → Str → Str → Prop
  | false => TomlBasicBody
  | true => TomlLinesBody 0

/-- The last quotes. -/
def closing : Bool → Str
  | false => c!"\""
  | true => c!"\"\"\""

theorem body_nil (lines : Bool) : TomlBody lines [] [] := by cases lines <;> constructor

theorem body_plain {lines : Bool} {c : Char} {s x : Str} (hc : TomlNonControl c) (h1 : c ≠ '"') (h2 : c ≠ '\\') (h : TomlBody lines s x) :
    TomlBody lines (c :: s) (c :: x) := by
  cases lines
  · exact .plain hc h1 h2 h
  · exact .plain hc h1 h2 h

theorem body_escaped {lines : Bool} {c : Char} {e s x : Str} (hc : TomlEscaped c e) (h : TomlBody lines s x) :
    TomlBody lines (c :: s) (e ++ x) := by
  cases lines
  · exact .escaped hc h
  · exact .escaped hc h

theorem linesBody_le {n : Nat} {s x : Str} (h : TomlLinesBody n s x) : ∀ m, m ≤ n → TomlLinesBody m s x := by
  induction h with
  | nil => exact fun _ _ => .nil
  | quote hn _ ih => exact fun m hm => .quote (by omega) (ih (m + 1) (by omega))
  | plain hc h1 h2 h _ => exact fun _ _ => .plain hc h1 h2 h
  | newline he h _ => exact fun _ _ => .newline he h
  | escaped he h _ => exact fun _ _ => .escaped he h
  | fold h1 h2 h3 h4 h5 _ => exact fun _ _ => .fold h1 h2 h3 h4 h5

/-- What a character outside escapes does. -/
theorem tomlPlainStep_more {lines : Bool} {c : Char} {o : Str} {st : TomlState} (h : tomlPlainStep lines c = .more o st) :
    (lines = true ∧ c = '"' ∧ o = [] ∧ st = .quotes 1) ∨ (c = '\\' ∧ o = [] ∧ st = .escaped) ∨
      (lines = true ∧ c = '\n' ∧ o = ['\n'] ∧ st = .plain) ∨ (lines = true ∧ c = '\r' ∧ o = [] ∧ st = .return false) ∨
      (TomlNonControl c ∧ c ≠ '"' ∧ c ≠ '\\' ∧ o = [c] ∧ st = .plain) := by
  unfold tomlPlainStep at h
  split at h
  · split at h
    · cases h
      rename_i h1 h2
      exact .inl ⟨h2, h1, rfl, rfl⟩
    · cases h
  · split at h
    · cases h
      rename_i h1
      exact .inr (.inl ⟨h1, rfl, rfl⟩)
    · split at h
      · cases h
        rename_i h1
        simp only [Bool.and_eq_true, beq_iff_eq] at h1
        exact .inr (.inr (.inl ⟨h1.1, h1.2, rfl, rfl⟩))
      · split at h
        · cases h
          rename_i h1
          simp only [Bool.and_eq_true, beq_iff_eq] at h1
          exact .inr (.inr (.inr (.inl ⟨h1.1, h1.2, rfl, rfl⟩)))
        · split at h
          · cases h
            rename_i h1 h2 _ _ h3
            exact .inr (.inr (.inr (.inr ⟨tomlPrintable_iff.1 h3, h1, h2, rfl, rfl⟩)))
          · cases h

/-- The same, for what is between quotes. -/
theorem tomlPlainStep_body {lines : Bool} {c : Char} {o : Str} {st : TomlState} (h : tomlPlainStep lines c = .more o st) :
    ∃ a b, [c] = a ++ b ∧ Pending lines st b ∧ ∀ v x, TomlBody lines v x → (b ≠ [] → x = [] ∨ x.head? = b.head?) →
      TomlBody lines (o ++ v) (a ++ x) ∧ (a ++ x = [] ∨ (a ++ x).head? = some c) := by
  rcases tomlPlainStep_more h with ⟨hl, rfl, rfl, rfl⟩ | ⟨rfl, rfl, rfl⟩ | ⟨rfl, rfl, rfl, rfl⟩ | ⟨rfl, rfl, rfl, rfl⟩ | ⟨h1, h2, h3, rfl, rfl⟩
  · exact ⟨[], ['"'], rfl, .quotes (n := 1) hl (by omega) (by omega), fun v x hx hb => ⟨hx, hb (by simp)⟩⟩
  · exact ⟨[], ['\\'], rfl, .escaped, fun v x hx hb => ⟨hx, hb (by simp)⟩⟩
  · exact ⟨['\n'], [], rfl, .plain, fun v x hx _ => ⟨.newline (.inl rfl) hx, .inr rfl⟩⟩
  · exact ⟨[], ['\r'], rfl, .ret rfl, fun v x hx hb => ⟨hx, hb (by simp)⟩⟩
  · exact ⟨[c], [], rfl, .plain, fun v x hx _ => ⟨body_plain h1 h2 h3 hx, .inr rfl⟩⟩

theorem tomlBlank_append {a b : Str} (ha : TomlBlank a) (hb : TomlBlank b) : TomlBlank (a ++ b) := by
  induction ha with
  | nil => exact hb
  | ws hc _ ih => exact .ws hc ih
  | nl he _ ih => rw [List.append_assoc]; exact .nl he ih

theorem tomlWs_append {a b : Str} (ha : TomlWs a) (hb : TomlWs b) : TomlWs (a ++ b) := fun c h =>
  (List.mem_append.1 h).elim (ha c) (hb c)

theorem tomlWs_one {c : Char} (h : c = ' ' ∨ c = '\t') : TomlWs [c] := fun d hd => by
  obtain rfl := List.mem_singleton.1 hd
  exact h

theorem linesBody_any {m : Nat} {v x : Str} (h : TomlLinesBody m v x) (hx : x.head? ≠ some '"') (n : Nat) : TomlLinesBody n v x := by
  cases h with
  | nil => exact .nil
  | quote hn _ => exact absurd rfl hx
  | plain hc h1 h2 h => exact .plain hc h1 h2 h
  | newline he h => exact .newline he h
  | escaped he h => exact .escaped he h
  | fold h1 h2 h3 h4 h5 => exact .fold h1 h2 h3 h4 h5

theorem linesBody_quotes {n : Nat} {v x : Str} (h : TomlLinesBody n v x) (hn : n ≤ 2) :
    TomlLinesBody 0 (List.replicate n '"' ++ v) (List.replicate n '"' ++ x) := by
  induction n generalizing v x with
  | zero => exact h
  | succ n ih =>
    rw [List.replicate_succ', List.append_assoc, List.append_assoc]
    exact ih (.quote (by omega) h) (by omega)

theorem tomlHex_body {lines : Bool} {l : Char} {k : Nat} (hl : (l = 'u' ∧ k = 4) ∨ (l = 'U' ∧ k = 8)) {h : Str} {v : Nat}
    (hv : NumberIn 16 h v) (hk : h.length < k) {c : Char} {o : Str} {st : TomlState}
    (hs : tomlHexStep (k - h.length) v c = .more o st) :
    ∃ a b, ('\\' :: l :: h) ++ [c] = a ++ b ∧ Pending lines st b ∧ ∀ v x, TomlBody lines v x →
      TomlBody lines (o ++ v) (a ++ x) := by
  unfold tomlHexStep at hs
  split at hs
  · cases hs
  · rename_i d hd
    have hd := hexVal_iff.1 hd
    have hn := NumberIn.snoc hv hd (hexDigit_lt hd)
    split at hs
    · cases hs
      rename_i h1
      refine ⟨[], '\\' :: l :: (h ++ [c]), rfl, ?_, fun v x hx => hx⟩
      have he : k - h.length - 1 = k - (h ++ [c]).length := by simp; omega
      rw [he]
      rcases hl with ⟨rfl, rfl⟩ | ⟨rfl, rfl⟩
      · exact .four hn (by simp; omega)
      · exact .eight hn (by simp; omega)
    · split at hs
      · cases hs
        rename_i h1 h2
        refine ⟨'\\' :: l :: (h ++ [c]), [], by simp, .plain, fun w x hx => body_escaped (c := Char.ofNat (v * 16 + d)) ?_ hx⟩
        have hok := isValidChar_iff.1 h2
        rcases hl with ⟨rfl, rfl⟩ | ⟨rfl, rfl⟩
        · exact .four hn (by simp; omega) (by omega)
        · exact .eight hn (by simp; omega) hok
      · cases hs

theorem tomlStep_body {lines : Bool} {st st' : TomlState} {pre o : Str} {c : Char} (hp : Pending lines st pre)
    (hs : tomlStep lines st c = .more o st') :
    ∃ a b, pre ++ [c] = a ++ b ∧ Pending lines st' b ∧ ∀ v x, TomlBody lines v x → (b ≠ [] → x = [] ∨ x.head? = b.head?) →
      TomlBody lines (o ++ v) (a ++ x) := by
  cases hp with
  | plain =>
    obtain ⟨a, b, h1, h2, h3⟩ := tomlPlainStep_body hs
    exact ⟨a, b, h1, h2, fun v x hx hb => (h3 v x hx hb).1⟩
  | escaped =>
    change tomlEscapeStep lines c = _ at hs
    unfold tomlEscapeStep at hs
    split at hs
    · cases hs
      rename_i a ha
      obtain ⟨n, hn, rfl⟩ := tomlSimpleEscape_iff.1 ha
      exact ⟨['\\', c], [], rfl, .plain, fun v x hx _ => body_escaped (.letter hn) hx⟩
    · split at hs
      · cases hs
        rename_i h; subst h
        exact ⟨[], ['\\', 'u'], rfl, .four .nil (by simp), fun v x hx _ => hx⟩
      · split at hs
        · cases hs
          rename_i h; subst h
          exact ⟨[], ['\\', 'U'], rfl, .eight .nil (by simp), fun v x hx _ => hx⟩
        · split at hs
          · cases hs
            rename_i h
            simp only [Bool.and_eq_true] at h
            exact ⟨[], ['\\', c], rfl, .foldNo h.1 (tomlWs_one (tomlSpace_iff.1 h.2)), fun v x hx _ => hx⟩
          · split at hs
            · cases hs
              rename_i h
              simp only [Bool.and_eq_true, beq_iff_eq] at h
              obtain ⟨h, rfl⟩ := h
              exact ⟨[], ['\\', '\n'], rfl, .foldYes (w := []) (e := ['\n']) (g := []) h (fun _ h => nomatch h) (.inl rfl) .nil, fun v x hx _ => hx⟩
            · split at hs
              · cases hs
                rename_i h
                simp only [Bool.and_eq_true, beq_iff_eq] at h
                obtain ⟨h, rfl⟩ := h
                exact ⟨[], ['\\', '\r'], rfl, .retNo (w := []) h (fun _ h => nomatch h), fun v x hx _ => hx⟩
              · cases hs
  | four hv hl =>
    obtain ⟨a, b, h1, h2, h3⟩ := tomlHex_body (lines := lines) (.inl ⟨rfl, rfl⟩) hv hl hs
    exact ⟨a, b, h1, h2, fun v x hx _ => h3 v x hx⟩
  | eight hv hl =>
    obtain ⟨a, b, h1, h2, h3⟩ := tomlHex_body (lines := lines) (.inr ⟨rfl, rfl⟩) hv hl hs
    exact ⟨a, b, h1, h2, fun v x hx _ => h3 v x hx⟩
  | @foldNo w hl hw =>
    simp only [tomlStep] at hs
    split at hs
    · cases hs
      rename_i h
      exact ⟨[], '\\' :: (w ++ [c]), rfl, .foldNo hl (tomlWs_append hw (tomlWs_one (tomlSpace_iff.1 h))), fun v x hx _ => hx⟩
    · split at hs
      · cases hs
        rename_i h; subst h
        exact ⟨[], '\\' :: (w ++ (['\n'] ++ [])), rfl, .foldYes hl hw (.inl rfl) .nil, fun v x hx _ => hx⟩
      · split at hs
        · cases hs
          rename_i h; subst h
          exact ⟨[], '\\' :: (w ++ ['\r']), rfl, .retNo hl hw, fun v x hx _ => hx⟩
        · cases hs
  | @foldYes w e g hl hw he hg =>
    simp only [tomlStep] at hs
    split at hs
    · cases hs
      rename_i h
      exact ⟨[], '\\' :: (w ++ (e ++ (g ++ [c]))), by simp, .foldYes hl hw he (tomlBlank_append hg (tomlBlank_of_ws (tomlWs_one (tomlSpace_iff.1 h)))),
        fun v x hx _ => hx⟩
    · split at hs
      · cases hs
        rename_i h; subst h
        exact ⟨[], '\\' :: (w ++ (e ++ (g ++ ['\n']))), by simp, .foldYes hl hw he (tomlBlank_append hg (.nl (x := []) (.inl rfl) .nil)),
          fun v x hx _ => hx⟩
      · split at hs
        · cases hs
          rename_i h; subst h
          exact ⟨[], '\\' :: (w ++ (e ++ (g ++ ['\r']))), by simp, .retYes hl hw he hg, fun v x hx _ => hx⟩
        · rename_i n1 n2 n3
          simp only [if_true] at hs
          obtain ⟨a, b, h1, h2, h3⟩ := tomlPlainStep_body hs
          refine ⟨'\\' :: (w ++ (e ++ (g ++ a))), b, by simp [h1], h2, fun v x hx hb => ?_⟩
          obtain ⟨h4, h5⟩ := h3 v x hx hb
          subst hl
          have : TomlLinesBody 0 (o ++ v) ('\\' :: (w ++ (e ++ (g ++ (a ++ x))))) := by
            refine .fold hw he hg (fun d r hd => ?_) h4
            rw [hd] at h5
            obtain rfl : d = c := by
              rcases h5 with h5 | h5
              · cases h5
              · exact Option.some.inj h5
            rw [tomlSpace_iff, not_or] at n1
            exact ⟨n1.1, n1.2, n2, n3⟩
          simpa [TomlBody] using this
  | ret hl =>
    simp only [tomlStep] at hs
    split at hs
    · cases hs
      rename_i h; subst h hl
      exact ⟨['\r', '\n'], [], rfl, .plain, fun v x hx _ => .newline (.inr rfl) hx⟩
    · cases hs
  | @retNo w hl hw =>
    simp only [tomlStep] at hs
    split at hs
    · cases hs
      rename_i h; subst h
      exact ⟨[], '\\' :: (w ++ (['\r', '\n'] ++ [])), by simp, .foldYes hl hw (.inr rfl) .nil, fun v x hx _ => hx⟩
    · cases hs
  | @retYes w e g hl hw he hg =>
    simp only [tomlStep] at hs
    split at hs
    · cases hs
      rename_i h; subst h
      exact ⟨[], '\\' :: (w ++ (e ++ (g ++ ['\r', '\n']))), by simp,
        .foldYes hl hw he (tomlBlank_append hg (.nl (x := []) (.inr rfl) .nil)), fun v x hx _ => hx⟩
    · cases hs
  | @quotes n hl h1 h5 =>
    simp only [tomlStep] at hs
    split at hs
    · split at hs
      · cases hs
        rename_i h _; subst h
        exact ⟨[], List.replicate (n + 1) '"', by rw [List.replicate_succ']; rfl, .quotes hl (by omega) (by omega), fun v x hx _ => hx⟩
      · cases hs
    · rename_i hc
      split at hs
      · rename_i hn
        cases hp : tomlPlainStep lines c with
        | more o' st'' =>
          rw [hp] at hs
          cases hs
          obtain ⟨a, b, h1, h2, h3⟩ := tomlPlainStep_body hp
          refine ⟨List.replicate n '"' ++ a, b, by rw [h1, List.append_assoc], h2, fun v x hx hb => ?_⟩
          obtain ⟨h4, h6⟩ := h3 v x hx hb
          subst hl
          rw [List.append_assoc, List.append_assoc]
          refine linesBody_quotes (linesBody_any h4 ?_ n) (by omega)
          rcases h6 with h6 | h6
          · rw [h6]; simp
          · rw [h6]; exact fun h => hc (Option.some.inj h)
        | _ => rw [hp] at hs; cases hs
      · cases hs

theorem tomlPlainStep_before {lines : Bool} {c : Char} {o : Str} : tomlPlainStep lines c ≠ .before o := by
  unfold tomlPlainStep
  repeat' split
  all_goals simp

theorem tomlPlainStep_done {lines : Bool} {c : Char} (h : tomlPlainStep lines c = .done) : lines = false ∧ c = '"' := by
  unfold tomlPlainStep at h
  split at h
  · split at h
    · cases h
    · rename_i h1 h2
      exact ⟨by simpa using h2, h1⟩
  · repeat' split at h
    all_goals cases h

theorem tomlStep_done {lines : Bool} {st : TomlState} {pre : Str} {c : Char} (hp : Pending lines st pre)
    (hs : tomlStep lines st c = .done) : lines = false ∧ pre = [] ∧ c = '"' := by
  cases hp with
  | plain =>
    obtain ⟨h1, h2⟩ := tomlPlainStep_done hs
    exact ⟨h1, rfl, h2⟩
  | escaped =>
    simp only [tomlStep, tomlEscapeStep] at hs
    repeat' split at hs
    all_goals cases hs
  | four | eight =>
    simp only [tomlStep, tomlHexStep] at hs
    repeat' split at hs
    all_goals cases hs
  | foldNo | ret | retNo | retYes =>
    simp only [tomlStep] at hs
    repeat' split at hs
    all_goals first | (cases hs; done) | contradiction
  | foldYes hl =>
    subst hl
    simp only [tomlStep] at hs
    repeat' split at hs
    all_goals first | (cases hs; done) | exact absurd (tomlPlainStep_done hs).1 (by decide)
  | quotes hl =>
    subst hl
    simp only [tomlStep] at hs
    repeat' split at hs
    · cases hs
    · cases hs
    · cases h : tomlPlainStep true c with
      | done => exact absurd (tomlPlainStep_done h).1 (by decide)
      | _ => rw [h] at hs; cases hs
    · cases hs

theorem tomlStep_before {lines : Bool} {st : TomlState} {pre o : Str} {c : Char} (hp : Pending lines st pre)
    (hs : tomlStep lines st c = .before o) :
    lines = true ∧ ∃ n, n ≤ 2 ∧ pre = List.replicate n '"' ++ ['"', '"', '"'] ∧ o = List.replicate n '"' ∧ c ≠ '"' := by
  cases hp with
  | plain => exact absurd hs tomlPlainStep_before
  | escaped =>
    simp only [tomlStep, tomlEscapeStep] at hs
    repeat' split at hs
    all_goals cases hs
  | four | eight =>
    simp only [tomlStep, tomlHexStep] at hs
    repeat' split at hs
    all_goals cases hs
  | foldNo | ret | retNo | retYes =>
    simp only [tomlStep] at hs
    repeat' split at hs
    all_goals first | (cases hs; done) | contradiction
  | foldYes hl =>
    simp only [tomlStep] at hs
    repeat' split at hs
    all_goals first | (cases hs; done) | exact absurd hs tomlPlainStep_before
  | @quotes n hl h1 h5 =>
    simp only [tomlStep] at hs
    split at hs
    · split at hs <;> cases hs
    · rename_i hc
      split at hs
      · cases h : tomlPlainStep lines c with
        | before => exact absurd h tomlPlainStep_before
        | _ => rw [h] at hs; cases hs
      · cases hs
        refine ⟨hl, n - 3, by omega, ?_, rfl, hc⟩
        rw [show (['"', '"', '"'] : Str) = List.replicate 3 '"' from rfl, List.replicate_append_replicate]
        congr 1
        omega

theorem linesBody_replicate {n : Nat} (h : n ≤ 2) : TomlLinesBody 0 (List.replicate n '"') (List.replicate n '"') := by
  have := linesBody_quotes (n := n) (v := []) (x := []) .nil h
  simpa using this

/-- What is read is what is between quotes. -/
theorem tomlChars_inv {lines : Bool} {s : Str} : ∀ {st : TomlState} {pre v r : Str}, Pending lines st pre →
    tomlChars lines st s = some (v, r) →
    ∃ x, pre ++ s = x ++ (closing lines ++ r) ∧ TomlBody lines v x ∧ (lines = true → NotHead '"' r) := by
  induction s with
  | nil =>
    intro st pre v r hp h
    cases hp with
    | @quotes n hl h1 h5 =>
      rw [tomlChars] at h
      split at h
      · cases h
        subst hl
        refine ⟨List.replicate (n - 3) '"', ?_, linesBody_replicate (by omega), fun _ => by simp [NotHead]⟩
        rw [List.append_nil, List.append_nil, closing, show (c!"\"\"\"" : Str) = List.replicate 3 '"' from rfl, List.replicate_append_replicate]
        congr 1
        omega
      · cases h
    | _ => simp [tomlChars] at h
  | cons c s ih =>
    intro st pre v r hp h
    rw [tomlChars] at h
    split at h
    · cases h
      rename_i hs
      obtain ⟨rfl, rfl, rfl⟩ := tomlStep_done hp hs
      exact ⟨[], rfl, .nil, fun h => nomatch h⟩
    · cases h
      rename_i hs
      obtain ⟨rfl, n, hn, rfl, rfl, hc⟩ := tomlStep_before hp hs
      exact ⟨List.replicate n '"', by simp [closing], linesBody_replicate hn, fun _ h => hc (Option.some.inj h)⟩
    · cases h
    · rename_i o st' hs
      split at h
      · cases h
        rename_i v' r' hr
        obtain ⟨a, b, h1, h2, h3⟩ := tomlStep_body hp hs
        obtain ⟨x, h4, h5, h6⟩ := ih h2 hr
        refine ⟨a ++ x, ?_, h3 _ x h5 ?_, h6⟩
        · rw [List.append_assoc, ← h4, ← List.append_assoc, ← h1, List.append_assoc]
          rfl
        · intro hb
          cases x with
          | nil => exact .inl rfl
          | cons d x =>
            cases b with
            | nil => exact absurd rfl hb
            | cons e b => exact .inr (congrArg some (List.cons.inj h4).1.symm)
      · cases h

/-! ## Texts in single quotes -/

theorem tomlRawLine_iff {s v r : Str} : tomlRawLine s = some (v, r) ↔ s = v ++ '\'' :: r ∧ ∀ c ∈ v, TomlNonControl c ∧ c ≠ '\'' := by
  constructor
  · intro h
    induction s generalizing v with
    | nil => cases h
    | cons c s ih =>
      rw [tomlRawLine] at h
      split at h
      · rename_i hc
        cases h
        subst hc
        exact ⟨rfl, fun _ h => nomatch h⟩
      · rename_i hc
        split at h
        · rename_i hp
          cases hs : tomlRawLine s with
          | none => rw [hs] at h; cases h
          | some a =>
            obtain ⟨v', r'⟩ := a
            rw [hs] at h
            cases h
            obtain ⟨h1, h2⟩ := ih hs
            refine ⟨by rw [h1]; rfl, fun d hd => ?_⟩
            rcases List.mem_cons.1 hd with rfl | hd
            · exact ⟨tomlPrintable_iff.1 hp, hc⟩
            · exact h2 d hd
        · cases h
  · rintro ⟨rfl, h⟩
    exact tomlRawLine_text (fun c hc => ⟨(h c hc).2, tomlPrintable_iff.2 (h c hc).1⟩) r

theorem tomlRaw_body {n : Nat} {s x : Str} (h : TomlRawBody n s x) (hn : n < 3) {rest : Str} (hr : NotHead '\'' rest) :
    tomlRaw n (x ++ ('\'' :: '\'' :: '\'' :: rest)) = some (List.replicate n '\'' ++ s, rest) := by
  induction h with
  | @nil n =>
    rw [List.nil_append, tomlRaw, if_pos rfl, if_pos (by omega), tomlRaw, if_pos rfl, if_pos (by omega), tomlRaw, if_pos rfl,
      if_pos (by omega)]
    cases rest with
    | nil => rw [tomlRaw, if_pos (by omega)]; simp
    | cons c r =>
      have hc : c ≠ '\'' := fun h => hr (by rw [h]; rfl)
      rw [tomlRaw, if_neg hc, if_pos (by omega)]
      simp
  | @quote n s x h2 _ ih =>
    rw [List.cons_append, tomlRaw, if_pos rfl, if_pos (by omega), ih (by omega), List.replicate_succ', List.append_assoc]
    rfl
  | @plain n c s x hc h1 _ ih =>
    have hp := tomlPrintable_iff.2 hc
    have hcr : c ≠ '\r' := by rintro rfl; revert hp; decide
    rw [List.cons_append, tomlRaw, if_neg h1, if_neg (by omega), if_neg hcr, if_pos (.inr hp), ih (by omega)]
    rfl
  | @newline n e s x he _ ih =>
    rcases he with rfl | rfl
    · rw [List.append_assoc, List.cons_append, tomlRaw, if_neg (by decide), if_neg (by omega), if_neg (by decide), if_pos (.inl rfl),
        List.nil_append, ih (by omega)]
      rfl
    · rw [List.append_assoc, List.cons_append, tomlRaw, if_neg (by decide), if_neg (by omega), if_pos rfl, List.cons_append, if_pos (by rfl),
        tomlRaw, if_neg (by decide), if_neg (by omega), if_neg (by decide), if_pos (.inl rfl), List.nil_append, ih (by omega)]
      rfl

theorem rawBody_any {m : Nat} {v x : Str} (h : TomlRawBody m v x) (hx : x.head? ≠ some '\'') (n : Nat) : TomlRawBody n v x := by
  cases h with
  | nil => exact .nil
  | quote hn _ => exact absurd rfl hx
  | plain hc h1 h => exact .plain hc h1 h
  | newline he h => exact .newline he h

theorem rawBody_quotes {n : Nat} {v x : Str} (h : TomlRawBody n v x) (hn : n ≤ 2) :
    TomlRawBody 0 (List.replicate n '\'' ++ v) (List.replicate n '\'' ++ x) := by
  induction n generalizing v x with
  | zero => exact h
  | succ n ih =>
    rw [List.replicate_succ', List.append_assoc, List.append_assoc]
    exact ih (.quote (by omega) h) (by omega)

theorem rawBody_replicate {n : Nat} (h : n ≤ 2) : TomlRawBody 0 (List.replicate n '\'') (List.replicate n '\'') := by
  have := rawBody_quotes (n := n) (v := []) (x := []) .nil h
  simpa using this

theorem rawBody_return {v y x : Str} (h : TomlRawBody 0 v y) (hy : y = '\n' :: x) : TomlRawBody 0 v ('\r' :: '\n' :: x) := by
  cases h with
  | nil => cases hy
  | quote => cases hy
  | plain hc =>
    cases hy
    rcases hc with hc | hc
    · cases hc
    · exact absurd hc.1 (by decide)
  | newline he h =>
    rcases he with rfl | rfl
    · cases hy
      exact .newline (e := ['\r', '\n']) (.inr rfl) h
    · cases hy

theorem tomlRaw_inv {s : Str} : ∀ {n : Nat} {v r : Str}, n ≤ 5 → tomlRaw n s = some (v, r) →
    ∃ x, List.replicate n '\'' ++ s = x ++ (c!"'''" ++ r) ∧ TomlRawBody 0 v x ∧ NotHead '\'' r := by
  have h3 : ∀ n, 3 ≤ n → List.replicate n '\'' = List.replicate (n - 3) '\'' ++ c!"'''" := fun n hn => by
    rw [show (c!"'''" : Str) = List.replicate 3 '\'' from rfl, List.replicate_append_replicate]
    congr 1
    omega
  induction s using List.recOn with
  | nil =>
    intro n v r hn h
    rw [tomlRaw] at h
    split at h
    · cases h
      rename_i hn'
      exact ⟨_, by rw [h3 n hn']; simp, rawBody_replicate (by omega), by simp [NotHead]⟩
    · cases h
  | cons c s ih =>
    intro n v r hn h
    rw [tomlRaw] at h
    split at h
    · rename_i hc
      subst hc
      split at h
      · obtain ⟨x, h1, h2⟩ := ih (by omega) h
        exact ⟨x, by rw [← h1, List.replicate_succ', List.append_assoc]; rfl, h2⟩
      · cases h
    · rename_i hc
      split at h
      · cases h
        rename_i hn'
        exact ⟨_, by rw [h3 n hn', List.append_assoc], rawBody_replicate (by omega), fun h => hc (Option.some.inj h)⟩
      · rename_i hn'
        split at h
        · rename_i hcr
          subst hcr
          split at h
          · rename_i hd
            cases hs : tomlRaw 0 s with
            | none => rw [hs] at h; cases h
            | some a =>
              obtain ⟨v', r'⟩ := a
              rw [hs] at h
              cases h
              obtain ⟨x, h1, h2, h4⟩ := ih (by omega) hs
              change s = _ at h1
              cases s with
              | nil => cases hd
              | cons d s =>
                obtain rfl : d = '\n' := Option.some.inj hd
                cases x with
                | nil => exact absurd (List.cons.inj h1).1 (by decide)
                | cons d' x =>
                  obtain rfl : '\n' = d' := (List.cons.inj h1).1
                  refine ⟨List.replicate n '\'' ++ ('\r' :: '\n' :: x), by rw [h1]; simp, ?_, h4⟩
                  refine rawBody_quotes (rawBody_any (m := 0) ?_ (by simp) n) (by omega)
                  exact rawBody_return h2 rfl
          · cases h
        · split at h
          · rename_i hp
            cases hs : tomlRaw 0 s with
            | none => rw [hs] at h; cases h
            | some a =>
              obtain ⟨v', r'⟩ := a
              rw [hs] at h
              cases h
              obtain ⟨x, h1, h2, h4⟩ := ih (by omega) hs
              change s = _ at h1
              refine ⟨List.replicate n '\'' ++ (c :: x), by rw [h1]; simp, ?_, h4⟩
              refine rawBody_quotes (rawBody_any (m := 0) ?_ (by simpa using hc) n) (by omega)
              rcases hp with rfl | hp
              · exact .newline (e := ['\n']) (.inl rfl) h2
              · exact .plain (tomlPrintable_iff.1 hp) hc h2
          · cases h

/-! ## Texts as values -/

theorem tomlFirstLine_after {y x : Str} (h : AfterOpening y x) {q : Char} (hq : q ≠ '\n') (hq' : q ≠ '\r') (z : Str) :
    tomlFirstLine (y ++ q :: z) = x ++ q :: z := by
  unfold tomlFirstLine
  rcases h with ⟨rfl, h⟩ | ⟨e, he, rfl⟩
  · cases hn : tomlNewline (y ++ q :: z) with
    | none => rfl
    | some r =>
      exfalso
      obtain ⟨e, he, h1⟩ := tomlNewline_iff.1 hn
      rcases he with rfl | rfl
      · cases y with
        | nil => exact hq (List.cons.inj h1).1
        | cons c y =>
          obtain rfl : c = '\n' := (List.cons.inj h1).1
          exact h ['\n'] y (.inl rfl) rfl
      · cases y with
        | nil => exact hq' (List.cons.inj h1).1
        | cons c y =>
          obtain rfl : c = '\r' := (List.cons.inj h1).1
          have h2 := (List.cons.inj h1).2
          cases y with
          | nil => exact hq (List.cons.inj h2).1
          | cons d y =>
            obtain rfl : d = '\n' := (List.cons.inj h2).1
            exact h ['\r', '\n'] y (.inr rfl) rfl
  · rw [tomlNewline_iff.2 ⟨e, he, by rw [List.append_assoc]⟩]
    rfl

theorem tomlFirstLine_inv {s x z : Str} (h : tomlFirstLine s = x ++ z) : ∃ y, s = y ++ z ∧ AfterOpening y x := by
  unfold tomlFirstLine at h
  cases hn : tomlNewline s with
  | none =>
    rw [hn] at h
    refine ⟨x, h, .inl ⟨rfl, fun e r he hx => ?_⟩⟩
    have h' : s = x ++ z := h
    rw [hx, List.append_assoc] at h'
    rw [tomlNewline_iff.2 ⟨e, he, h'⟩] at hn
    cases hn
  | some r =>
    rw [hn] at h
    obtain ⟨e, he, rfl⟩ := tomlNewline_iff.1 hn
    obtain rfl : r = x ++ z := h
    exact ⟨e ++ x, by rw [List.append_assoc], .inr ⟨e, he, rfl⟩⟩

theorem tomlText_double {s : Str} (h : ∀ r, s ≠ '"' :: '"' :: r) : tomlText ('"' :: s) = tomlChars false .plain s := by
  rw [tomlText]
  exact fun r hr => h r hr

theorem tomlText_single {s : Str} (h : ∀ r, s ≠ '\'' :: '\'' :: r) : tomlText ('\'' :: s) = tomlRawLine s := by
  rw [tomlText]
  exact fun r hr => h r hr

theorem basicBody_head {s y : Str} (h : TomlBasicBody s y) : y.head? ≠ some '"' := by
  cases h with
  | nil => simp
  | plain _ h1 => exact fun h => h1 (Option.some.inj h)
  | escaped he => cases he <;> exact fun h => absurd (Option.some.inj h) (by decide)

/-- Texts in quotes are read. -/
theorem tomlText_quoted {v x rest : Str} (h : TomlQuoted v x) (h1 : NotHead '"' rest) (h2 : NotHead '\'' rest) :
    tomlText (x ++ rest) = some (v, rest) := by
  cases h with
  | basic h =>
    obtain ⟨y, rfl, hy⟩ := h
    rw [List.cons_append, List.append_assoc, tomlText_double]
    · exact tomlChars_basicBody hy rest
    · intro r hr
      cases y with
      | nil => exact h1 (by rw [show rest = '"' :: r from (List.cons.inj hr).2]; rfl)
      | cons c y => exact basicBody_head hy (by rw [(List.cons.inj hr).1]; rfl)
  | @lines x y hx hy =>
    have := tomlFirstLine_after hy (q := '"') (by decide) (by decide) ('"' :: '"' :: rest)
    simp only [List.cons_append, List.append_assoc, List.nil_append, tomlText]
    rw [this]
    exact tomlChars_linesBody hx (by omega) h1
  | literal h =>
    obtain ⟨rfl, hy⟩ := h
    rw [List.cons_append, List.append_assoc, tomlText_single]
    · exact tomlRawLine_iff.2 ⟨rfl, hy⟩
    · intro r hr
      cases v with
      | nil => exact h2 (by rw [show rest = '\'' :: r from (List.cons.inj hr).2]; rfl)
      | cons c y => exact (hy c (.head _)).2 (List.cons.inj hr).1
  | @raw x y hx hy =>
    have := tomlFirstLine_after hy (q := '\'') (by decide) (by decide) ('\'' :: '\'' :: rest)
    simp only [List.cons_append, List.append_assoc, List.nil_append, tomlText]
    rw [this]
    exact tomlRaw_body hx (by omega) h2

theorem tomlChars_false_inv {s v r : Str} (h : tomlChars false .plain s = some (v, r)) : ∃ x, s = x ++ '"' :: r ∧ TomlBasicBody v x := by
  obtain ⟨x, h1, h2, _⟩ := tomlChars_inv .plain h
  exact ⟨x, h1, h2⟩

/-- What is read as a text is one in quotes. -/
theorem tomlText_inv {s v r : Str} (h : tomlText s = some (v, r)) : ∃ x, s = x ++ r ∧ TomlQuoted v x := by
  unfold tomlText at h
  split at h
  · obtain ⟨x, h1, h2, _⟩ := tomlChars_inv .plain h
    obtain ⟨y, rfl, hy⟩ := tomlFirstLine_inv h1
    exact ⟨_, by simp [closing], .lines h2 hy⟩
  · obtain ⟨x, rfl, h2⟩ := tomlChars_false_inv h
    exact ⟨_, by simp, .basic ⟨x, rfl, h2⟩⟩
  · obtain ⟨x, h1, h2, _⟩ := tomlRaw_inv (by omega) h
    obtain ⟨y, rfl, hy⟩ := tomlFirstLine_inv (show tomlFirstLine _ = _ from h1)
    exact ⟨_, by simp, .raw h2 hy⟩
  · obtain ⟨rfl, h2⟩ := tomlRawLine_iff.1 h
    exact ⟨'\'' :: (v ++ ['\'']), by simp, .literal ⟨rfl, h2⟩⟩
  · cases h

theorem quoted_head {v x : Str} (h : TomlQuoted v x) : ∃ c y, x = c :: y ∧ (c = '"' ∨ c = '\'') := by
  cases h with
  | basic h => obtain ⟨y, rfl, _⟩ := h; exact ⟨_, _, rfl, .inl rfl⟩
  | lines => exact ⟨_, _, rfl, .inl rfl⟩
  | literal h => obtain ⟨rfl, _⟩ := h; exact ⟨_, _, rfl, .inr rfl⟩
  | raw => exact ⟨_, _, rfl, .inr rfl⟩

end Rops
