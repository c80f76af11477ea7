import Verif.Lemmas.TomlNumbers
/-!
# The grammar of TOML: keys, lines and words
-/

namespace Rops
open Spec

theorem of_mem_takeWhile {p : Char → Bool} {s : Str} {c : Char} (h : c ∈ s.takeWhile p) : p c = true := by
  induction s with
  | nil => cases h
  | cons d s ih =>
    rw [List.takeWhile_cons] at h
    split at h
    · rename_i hd
      rcases List.mem_cons.1 h with rfl | h
      · exact hd
      · exact ih h
    · cases h

theorem takeWhile_ws (s : Str) : TomlWs (s.takeWhile tomlSpace) := fun c hc => tomlSpace_iff.1 (of_mem_takeWhile hc)

theorem ws_space {w : Str} (h : TomlWs w) : ∀ c ∈ w, tomlSpace c = true := fun c hc => tomlSpace_iff.2 (h c hc)

theorem space_split (s : Str) : s = s.takeWhile tomlSpace ++ s.dropWhile tomlSpace := List.takeWhile_append_dropWhile.symm

theorem tomlWs_nil : TomlWs [] := fun _ h => nomatch h

/-! ## Keys -/

/-- The first character of a part of a key. -/
def PartHead (c : Char) : Prop := tomlBare c = true ∨ c = '"' ∨ c = '\''

theorem part_head {k x : Str} (h : TomlPart k x) : ∃ c r, x = c :: r ∧ PartHead c := by
  cases h with
  | bare h0 h =>
    cases k with
    | nil => exact absurd rfl h0
    | cons c k => exact ⟨c, k, rfl, .inl (tomlBare_iff.2 (h c (.head _)))⟩
  | basic h => obtain ⟨y, rfl, _⟩ := h; exact ⟨_, _, rfl, .inr (.inl rfl)⟩
  | literal h => obtain ⟨rfl, _⟩ := h; exact ⟨_, _, rfl, .inr (.inr rfl)⟩

theorem partHead_ne {c d : Char} (h : PartHead c) (hd : tomlBare d = false ∧ d ≠ '"' ∧ d ≠ '\'') : c ≠ d := by
  rintro rfl
  rcases h with h | h | h
  · rw [hd.1] at h; cases h
  · exact hd.2.1 h
  · exact hd.2.2 h

theorem partHead_space {c : Char} (h : PartHead c) : tomlSpace c = false := by
  rw [Bool.eq_false_iff, Ne, tomlSpace_iff, not_or]
  exact ⟨partHead_ne h (by decide), partHead_ne h (by decide)⟩

theorem tomlSimpleKey_part {k x rest : Str} (h : TomlPart k x) (hr : NotBegins tomlBare rest) : tomlSimpleKey (x ++ rest) = some (k, rest) := by
  cases h with
  | bare h0 h =>
    have hall : ∀ c ∈ k, tomlBare c = true := fun c hc => tomlBare_iff.2 (h c hc)
    have ht := takeWhile_append_begins hall hr
    have hd := dropWhile_append_begins hall hr
    cases k with
    | nil => exact absurd rfl h0
    | cons c k =>
      have hc := hall c (.head _)
      rw [tomlSimpleKey.eq_def]
      split
      · rename_i he; rw [(List.cons.inj he).1] at hc; exact absurd hc (by decide)
      · rename_i he; rw [(List.cons.inj he).1] at hc; exact absurd hc (by decide)
      · rw [ht, hd]; simp
  | basic h =>
    obtain ⟨y, rfl, hy⟩ := h
    rw [List.cons_append, List.append_assoc]
    exact tomlChars_basicBody hy rest
  | literal h =>
    obtain ⟨rfl, hy⟩ := h
    rw [List.cons_append, List.append_assoc]
    exact tomlRawLine_iff.2 ⟨rfl, hy⟩

theorem tomlSimpleKey_inv {s k r : Str} (h : tomlSimpleKey s = some (k, r)) : ∃ x, s = x ++ r ∧ TomlPart k x := by
  unfold tomlSimpleKey at h
  split at h
  · obtain ⟨x, rfl, hx⟩ := tomlChars_false_inv h
    exact ⟨'"' :: (x ++ ['"']), by simp, .basic ⟨x, rfl, hx⟩⟩
  · obtain ⟨rfl, hx⟩ := tomlRawLine_iff.1 h
    exact ⟨'\'' :: (k ++ ['\'']), by simp, .literal ⟨rfl, hx⟩⟩
  · split at h
    · cases h
    · rename_i hne
      cases h
      exact ⟨_, List.takeWhile_append_dropWhile.symm, .bare (by simpa using hne) fun c hc => tomlBare_iff.1 (of_mem_takeWhile hc)⟩

/-- What follows a key: an equals sign or a bracket. -/
def KeyEnd (rest : Str) : Prop := ∃ c r, rest = c :: r ∧ (c = '=' ∨ c = ']')

theorem ws_begins {w : Str} (hw : TomlWs w) {p : Char → Bool} (h1 : p ' ' = false) (h2 : p '\t' = false) {r : Str} (hr : NotBegins p r) :
    NotBegins p (w ++ r) := by
  cases w with
  | nil => exact hr
  | cons c w =>
    refine begins_cons.2 ?_
    rcases hw c (.head _) with rfl | rfl
    · exact h1
    · exact h2

theorem dropWhile_ws {w : Str} (hw : TomlWs w) {r : Str} (hr : NotBegins tomlSpace r) : (w ++ r).dropWhile tomlSpace = r :=
  dropWhile_append_begins (ws_space hw) hr

theorem tomlReadPath_of {p : List Str} {y : Str} (h : TomlKeyText p y) {rest : Str} (hr : KeyEnd rest) {n : Nat} (hn : p.length ≤ n) :
    tomlReadPath n (y ++ rest) = some (p, rest) := by
  have he : ∀ {q : Char → Bool}, q '=' = false → q ']' = false → NotBegins q rest := by
    intro q h1 h2
    obtain ⟨c, r, rfl, rfl | rfl⟩ := hr
    · exact begins_cons.2 h1
    · exact begins_cons.2 h2
  induction h generalizing n with
  | @one k w x w' hw hx hw' =>
    cases n with
    | zero => simp at hn
    | succ n =>
      obtain ⟨c, r, hc, hh⟩ := part_head hx
      have h1 : ((w ++ (x ++ w')) ++ rest).dropWhile tomlSpace = x ++ (w' ++ rest) := by
        rw [List.append_assoc, List.append_assoc]
        exact dropWhile_ws hw (by rw [hc]; exact begins_cons.2 (partHead_space hh))
      rw [tomlReadPath, h1, tomlSimpleKey_part hx (ws_begins hw' (by decide) (by decide) (he (by decide) (by decide)))]
      simp only [dropWhile_ws hw' (he (by decide) (by decide))]
      obtain ⟨c, r, rfl, rfl | rfl⟩ := hr <;> rfl
  | @cons k w x w' y p hw hx hw' _ ih =>
    cases n with
    | zero => simp at hn
    | succ n =>
      obtain ⟨c, r, hc, hh⟩ := part_head hx
      have h1 : ((w ++ (x ++ (w' ++ '.' :: y))) ++ rest).dropWhile tomlSpace = x ++ (w' ++ '.' :: (y ++ rest)) := by
        simp only [List.append_assoc, List.cons_append]
        exact dropWhile_ws hw (by rw [hc]; exact begins_cons.2 (partHead_space hh))
      rw [tomlReadPath, h1, tomlSimpleKey_part hx (ws_begins hw' (by decide) (by decide) (begins_cons.2 (by decide)))]
      simp only [dropWhile_ws hw' (r := '.' :: (y ++ rest)) (begins_cons.2 (by decide)), ih (n := n) (by simpa using hn)]

theorem tomlReadPath_inv {n : Nat} {s r : Str} {p : List Str} (h : tomlReadPath n s = some (p, r)) : ∃ y, s = y ++ r ∧ TomlKeyText p y := by
  induction n generalizing s p with
  | zero => cases h
  | succ n ih =>
    rw [tomlReadPath] at h
    split at h
    · cases h
    · rename_i k r1 hk
      obtain ⟨x, h1, hx⟩ := tomlSimpleKey_inv hk
      have hs : s = s.takeWhile tomlSpace ++ (x ++ (r1.takeWhile tomlSpace ++ r1.dropWhile tomlSpace)) := by
        rw [← space_split, ← h1, ← space_split]
      split at h
      · rename_i r2 hr2
        split at h
        · cases h
          rename_i p' r' hp
          obtain ⟨y, rfl, hy⟩ := ih hp
          rw [hr2] at hs
          exact ⟨_, by simpa using hs, .cons (takeWhile_ws s) hx (takeWhile_ws r1) hy⟩
        · cases h
      · cases h
        exact ⟨s.takeWhile tomlSpace ++ (x ++ r1.takeWhile tomlSpace), by simpa using hs, .one (takeWhile_ws s) hx (takeWhile_ws r1)⟩

theorem keyText_length {p : List Str} {y : Str} (h : TomlKeyText p y) : p.length ≤ y.length := by
  induction h with
  | one _ hx =>
    obtain ⟨c, r, rfl, _⟩ := part_head hx
    simp only [List.length_append, List.length_cons, List.length_nil]
    omega
  | cons _ _ _ _ ih =>
    simp only [List.length_append, List.length_cons]
    omega

theorem tomlReadKey_of {S : TomlScalars} {p : List Str} {y : Str} (h : TomlKeyText p y) (hl : p.length < S.limit) {rest : Str} (hr : KeyEnd rest) :
    tomlReadKey S (y ++ rest) = some (p, rest) := by
  unfold tomlReadKey
  have := keyText_length h
  rw [tomlReadPath_of h hr (by rw [List.length_append]; omega)]
  simp only [if_pos hl]

theorem tomlReadKey_inv {S : TomlScalars} {s r : Str} {p : List Str} (h : tomlReadKey S s = some (p, r)) :
    ∃ y, s = y ++ r ∧ TomlKeyText p y ∧ p.length < S.limit := by
  unfold tomlReadKey at h
  split at h
  · rename_i p' r' hp
    split at h
    · cases h
      rename_i hl
      obtain ⟨y, h1, h2⟩ := tomlReadPath_inv hp
      exact ⟨y, h1, h2, hl⟩
    · cases h
  · cases h

theorem keyText_ws {p : List Str} {y w : Str} (h : TomlKeyText p y) (hw : TomlWs w) : TomlKeyText p (w ++ y) := by
  cases h with
  | one h1 h2 h3 => rw [← List.append_assoc]; exact .one (tomlWs_append hw h1) h2 h3
  | cons h1 h2 h3 h4 => rw [← List.append_assoc]; exact .cons (tomlWs_append hw h1) h2 h3 h4

/-- White space before a key may be left out. -/
theorem keyText_dropWhile {p : List Str} {y : Str} (h : TomlKeyText p y) (t : Str) :
    ∃ y', (y ++ t).dropWhile tomlSpace = y' ++ t ∧ TomlKeyText p y' ∧ y'.length ≤ y.length ∧ ∃ c r, y' = c :: r ∧ PartHead c := by
  cases h with
  | @one k w x w' h1 h2 h3 =>
    obtain ⟨c, r, rfl, hh⟩ := part_head h2
    refine ⟨(c :: r) ++ w', ?_, .one (w := []) tomlWs_nil h2 h3, by simp, c, r ++ w', rfl, hh⟩
    rw [List.append_assoc]
    exact dropWhile_ws h1 (begins_cons.2 (partHead_space hh))
  | @cons k w x w' y p h1 h2 h3 h4 =>
    obtain ⟨c, r, rfl, hh⟩ := part_head h2
    refine ⟨(c :: r) ++ (w' ++ '.' :: y), ?_, .cons (w := []) tomlWs_nil h2 h3 h4, by simp, c, r ++ (w' ++ '.' :: y), rfl, hh⟩
    rw [List.append_assoc]
    exact dropWhile_ws h1 (begins_cons.2 (partHead_space hh))

theorem keyText_ne {p : List Str} {y : Str} (h : TomlKeyText p y) : p ≠ [] := by cases h <;> simp

theorem path_last {p : List Str} (h : p ≠ []) : p = p.dropLast ++ [p.getLast?.getD []] := by
  have := List.dropLast_concat_getLast h
  rw [List.getLast?_eq_some_getLast h]
  exact this.symm

/-! ## Ends of lines -/

theorem nl_begins {e : Str} (h : TomlNl e) {p : Char → Bool} (h1 : p '\n' = false) (h2 : p '\r' = false) (r : Str) : NotBegins p (e ++ r) := by
  rcases h with rfl | rfl
  · exact begins_cons.2 h1
  · exact begins_cons.2 h2

theorem remark_comment {t : Str} (h : TomlRemark t) {r : Str} (hr : NotBegins tomlPrintable r) : tomlComment (t ++ r) = r := by
  obtain ⟨u, rfl, hu⟩ := h
  rw [List.cons_append, tomlComment]
  exact dropWhile_append_begins (fun c hc => tomlPrintable_iff.2 (hu c hc)) hr

theorem tail_comment {z : Str} (h : TomlTail z) {r : Str} (h1 : NotBegins tomlPrintable r) (h2 : NotBegins tomlSpace r) (h3 : NotHead '#' r) :
    tomlComment ((z ++ r).dropWhile tomlSpace) = r := by
  obtain ⟨w, t, rfl, hw, rfl | ht⟩ := h
  · rw [List.append_nil, dropWhile_ws hw h2]
    unfold tomlComment
    split
    · exact absurd rfl h3
    · rfl
  · have : NotBegins tomlSpace (t ++ r) := by
      obtain ⟨u, rfl, _⟩ := ht
      exact begins_cons.2 (by decide)
    rw [List.append_assoc, dropWhile_ws hw this]
    exact remark_comment ht h1

theorem nl_notHash {e : Str} (h : TomlNl e) (r : Str) : NotHead '#' (e ++ r) := by
  rcases h with rfl | rfl <;> exact fun h => absurd (Option.some.inj h) (by decide)

theorem tomlLineEnd_last {z : Str} (h : TomlTail z) : tomlLineEnd z = some [] := by
  have := tail_comment h (begins_nil _) (begins_nil _) (by simp [NotHead])
  rw [List.append_nil] at this
  unfold tomlLineEnd
  rw [this]

theorem tomlLineEnd_nl {z e y : Str} (h : TomlTail z) (he : TomlNl e) : tomlLineEnd (z ++ (e ++ y)) = some y := by
  have := tail_comment h (nl_begins he (by decide) (by decide) y) (nl_begins he (by decide) (by decide) y) (nl_notHash he y)
  unfold tomlLineEnd
  rw [this]
  rcases he with rfl | rfl <;> rfl

theorem tomlComment_inv (s : Str) : ∃ t, s = t ++ tomlComment s ∧ (t = [] ∨ TomlRemark t) := by
  unfold tomlComment
  split
  · rename_i r
    exact ⟨'#' :: r.takeWhile tomlPrintable, by rw [List.cons_append, List.takeWhile_append_dropWhile],
      .inr ⟨_, rfl, fun c hc => tomlPrintable_iff.1 (of_mem_takeWhile hc)⟩⟩
  · exact ⟨[], rfl, .inl rfl⟩

theorem tomlLineEnd_inv {s r : Str} (h : tomlLineEnd s = some r) : (r = [] ∧ TomlTail s) ∨ ∃ z e, s = z ++ (e ++ r) ∧ TomlTail z ∧ TomlNl e := by
  obtain ⟨t, h1, h2⟩ := tomlComment_inv (s.dropWhile tomlSpace)
  have hs := space_split s
  unfold tomlLineEnd at h
  split at h
  · cases h
    rename_i h0
    rw [h0, List.append_nil] at h1
    rw [h1] at hs
    exact .inl ⟨rfl, _, _, hs, takeWhile_ws s, h2⟩
  · obtain ⟨e, he, h3⟩ := tomlNewline_iff.1 h
    rw [h3] at h1
    rw [h1] at hs
    exact .inr ⟨_, e, by rw [List.append_assoc]; exact hs, ⟨_, _, rfl, takeWhile_ws s, h2⟩, he⟩

/-! ## Between elements -/

/-- What follows white space, comments and ends of lines. -/
def gapEnd (c : Char) : Bool := !(tomlSpace c || c == '\n' || c == '\r' || c == '#')

theorem tomlGap_space (n : Nat) {c : Char} (hc : tomlSpace c = true) (s : Str) : tomlGap (n + 1) (c :: s) = tomlGap (n + 1) s := by
  rw [tomlGap, tomlGap, List.dropWhile_cons_of_pos hc]

theorem tomlGap_nl (n : Nat) {e : Str} (he : TomlNl e) (s : Str) : tomlGap (n + 1) (e ++ s) = tomlGap n s := by
  rcases he with rfl | rfl <;> rfl

theorem tomlGap_remark (n : Nat) {t e : Str} (ht : TomlRemark t) (he : TomlNl e) (s : Str) : tomlGap (n + 1) (t ++ (e ++ s)) = tomlGap n s := by
  obtain ⟨u, rfl, hu⟩ := ht
  rw [tomlGap, List.cons_append, List.dropWhile_cons_of_neg (by decide)]
  simp only
  rw [dropWhile_append_begins (fun c hc => tomlPrintable_iff.2 (hu c hc)) (nl_begins he (by decide) (by decide) s),
    tomlNewline_iff.2 ⟨e, he, rfl⟩]

theorem tomlGap_of {g : Str} (h : TomlBetween g) {c : Char} {r : Str} (hc : gapEnd c = true) {n : Nat} (hn : g.length < n) :
    tomlGap n (g ++ c :: r) = some (c :: r) := by
  have hc' : tomlSpace c = false ∧ c ≠ '\n' ∧ c ≠ '\r' ∧ c ≠ '#' := by
    unfold gapEnd at hc
    simpa [and_assoc] using hc
  obtain ⟨h1, h2, h3, h4⟩ := hc'
  induction h generalizing n with
  | nil =>
    cases n with
    | zero => simp at hn
    | succ n =>
      rw [List.nil_append, tomlGap, List.dropWhile_cons_of_neg (by rw [h1]; decide)]
      split
      · rename_i h; exact absurd (List.cons.inj h).1 h4
      · split
        · rename_i r' hr
          obtain ⟨e, he, h⟩ := tomlNewline_iff.1 hr
          rcases he with rfl | rfl
          · exact absurd (List.cons.inj h).1 h2
          · exact absurd (List.cons.inj h).1 h3
        · rfl
  | @ws c' x hw _ ih =>
    cases n with
    | zero => simp at hn
    | succ n =>
      rw [List.cons_append, tomlGap_space n (tomlSpace_iff.2 hw)]
      exact ih (by rw [List.length_cons] at hn; omega)
  | @nl e x he _ ih =>
    cases n with
    | zero => simp at hn
    | succ n =>
      rw [List.append_assoc, tomlGap_nl n he]
      refine ih ?_
      rw [List.length_append] at hn
      rcases he with rfl | rfl <;> simp at hn <;> omega
  | @remark t e x ht he _ ih =>
    cases n with
    | zero => simp at hn
    | succ n =>
      rw [List.append_assoc, List.append_assoc, tomlGap_remark n ht he]
      refine ih ?_
      simp only [List.length_append] at hn
      rcases he with rfl | rfl <;> simp at hn <;> omega

theorem between_ws {w : Str} (hw : TomlWs w) {g : Str} (hg : TomlBetween g) : TomlBetween (w ++ g) := by
  induction w with
  | nil => exact hg
  | cons c w ih => exact .ws (hw c (.head _)) (ih fun c hc => hw c (.tail _ hc))

theorem tomlGap_inv {n : Nat} {s r : Str} (h : tomlGap n s = some r) : ∃ g, s = g ++ r ∧ TomlBetween g := by
  induction n generalizing s with
  | zero => cases h
  | succ n ih =>
    have hs := space_split s
    rw [tomlGap] at h
    split at h
    · rename_i r1 hd
      split at h
      · rename_i r2 hr
        obtain ⟨e, he, h2⟩ := tomlNewline_iff.1 hr
        obtain ⟨g, rfl, hg⟩ := ih h
        have h3 : r1 = r1.takeWhile tomlPrintable ++ (e ++ (g ++ r)) := by rw [← h2, List.takeWhile_append_dropWhile]
        rw [hd, h3] at hs
        refine ⟨s.takeWhile tomlSpace ++ (('#' :: r1.takeWhile tomlPrintable) ++ (e ++ g)), ?_, between_ws (takeWhile_ws s)
          (.remark ⟨_, rfl, fun c hc => tomlPrintable_iff.1 (of_mem_takeWhile hc)⟩ he hg)⟩
        simpa using hs
      · cases h
    · split at h
      · rename_i r2 hr
        obtain ⟨e, he, h2⟩ := tomlNewline_iff.1 hr
        obtain ⟨g, rfl, hg⟩ := ih h
        rw [h2] at hs
        exact ⟨s.takeWhile tomlSpace ++ (e ++ g), by simpa using hs, between_ws (takeWhile_ws s) (.nl he hg)⟩
      · cases h
        exact ⟨s.takeWhile tomlSpace, hs, by simpa using between_ws (takeWhile_ws s) .nil⟩

/-! ## Words -/

theorem tomlDay_iff {a : Str} : tomlDay a = true ↔ a.length = 10 ∧ a[4]? = some '-' ∧ a[7]? = some '-' := by
  unfold tomlDay
  simp [List.head?_drop, and_assoc]

theorem tomlToken_of {x rest : Str} (h : TomlDateShape x) (hr : AfterValue rest) : tomlToken (x ++ rest) = (x, rest) := by
  rcases h with ⟨_, h⟩ | ⟨a, y, z, rfl, hl, ha, h4, h7, hy, hz, hz1, hz2⟩
  · exact tomlToken_text (fun c hc => tomlTokenChar_iff.2 (h c hc)) hr
  · have ha' : ∀ c ∈ a, tomlTokenChar c = true := fun c hc => tomlTokenChar_iff.2 (ha c hc)
    have hy' : ∀ c ∈ y, tomlTokenChar c = true := fun c hc => tomlTokenChar_iff.2 (hy c hc)
    have hb : NotBegins tomlTokenChar (' ' :: (y ++ rest)) := begins_cons.2 (by decide)
    unfold tomlToken
    rw [List.append_assoc, List.cons_append]
    simp only [takeWhile_append_begins ha' hb, dropWhile_append_begins ha' hb]
    cases y with
    | nil => cases hz
    | cons c y =>
      obtain rfl := Option.some.inj hz
      have hd : (tomlDay a && c.isDigit) = true := by
        rw [tomlDay_iff.2 ⟨hl, h4, h7⟩, isDigit_iff.2 ⟨hz1, hz2⟩]
        rfl
      simp only [List.cons_append, hd, if_true]
      rw [← List.cons_append, takeWhile_append_begins hy' hr.token, dropWhile_append_begins hy' hr.token]

theorem tomlToken_inv (s : Str) : s = (tomlToken s).1 ++ (tomlToken s).2 ∧ ((tomlToken s).1 = [] ∨ TomlDateShape (tomlToken s).1) := by
  have hw : ∀ t : Str, ∀ c ∈ t.takeWhile tomlTokenChar, TomlWordChar c := fun t c hc => tomlTokenChar_iff.1 (of_mem_takeWhile hc)
  have hs : s = s.takeWhile tomlTokenChar ++ s.dropWhile tomlTokenChar := List.takeWhile_append_dropWhile.symm
  have h1 : s.takeWhile tomlTokenChar = [] ∨ TomlDateShape (s.takeWhile tomlTokenChar) := by
    by_cases h : s.takeWhile tomlTokenChar = []
    · exact .inl h
    · exact .inr (.inl ⟨h, hw s⟩)
  unfold tomlToken
  simp only
  split
  · rename_i c r hd
    split
    · rename_i hc
      rw [Bool.and_eq_true, tomlDay_iff, isDigit_iff] at hc
      obtain ⟨⟨hl, h4, h7⟩, hc⟩ := hc
      refine ⟨?_, .inr (.inr ⟨s.takeWhile tomlTokenChar, (c :: r).takeWhile tomlTokenChar, c, rfl, hl, hw s, h4, h7, hw _, ?_, hc.1, hc.2⟩)⟩
      · simp only [List.append_assoc, List.cons_append]
        rw [List.takeWhile_append_dropWhile, ← hd]
        exact hs
      · rw [List.takeWhile_cons_of_pos]
        · rfl
        · exact tomlTokenChar_iff.2 (.inr (.inr (.inl hc)))
    · rw [hd] at hs
      exact ⟨hs, h1⟩
  · exact ⟨hs, h1⟩

theorem digitIn_word {base : Nat} {c : Char} (h : DigitIn base c ∨ c = '_') : TomlWordChar c := by
  rw [← tomlTokenChar_iff]
  rcases h with h | rfl
  · have := digitIn_char h
    unfold tomlTokenChar
    have : c.isAlphanum = true := by
      rw [alphanum_iff]
      simp only [Char.le_def, UInt32.le_iff_toNat_le]
      have e1 : 'a'.val.toNat = 97 := rfl
      have e2 : 'z'.val.toNat = 122 := rfl
      have e3 : 'A'.val.toNat = 65 := rfl
      have e4 : 'Z'.val.toNat = 90 := rfl
      have e5 : '0'.val.toNat = 48 := rfl
      have e6 : '9'.val.toNat = 57 := rfl
      rw [e1, e2, e3, e4, e5, e6]
      change _ ∧ _ ∨ _ at this
      have e7 : c.val.toNat = c.toNat := rfl
      omega
    rw [this]
    rfl
  · decide

theorem sign_word {kept sg : Str} (h : TomlSignText kept sg) : ∀ c ∈ sg, c = '+' ∨ c = '-' := by
  rcases h with ⟨_, rfl | rfl⟩ | ⟨_, rfl⟩ <;> simp

theorem word_of_sign {c : Char} (h : c = '+' ∨ c = '-') : TomlWordChar c := by
  rw [← tomlTokenChar_iff]
  rcases h with rfl | rfl <;> decide

theorem intText_shape {n : Int} {x : Str} (h : TomlIntText n x) : TomlDateShape x := by
  left
  cases h with
  | plain hs hd hn =>
    obtain ⟨c, r, rfl, _⟩ := dec_head hd
    refine ⟨by simp, fun c hc => ?_⟩
    rcases List.mem_append.1 hc with hc | hc
    · exact word_of_sign (sign_word (.inl ⟨rfl, hs⟩) c hc)
    · exact digitIn_word (grouped_chars hd.1 c hc)
  | minus hd hn =>
    refine ⟨by simp, fun c hc => ?_⟩
    rcases List.mem_cons.1 hc with rfl | hc
    · exact word_of_sign (.inr rfl)
    · exact digitIn_word (grouped_chars hd.1 c hc)
  | base hl hg hn =>
    refine ⟨by simp, fun c hc => ?_⟩
    rcases List.mem_cons.1 hc with rfl | hc
    · rw [← tomlTokenChar_iff]; decide
    · rcases List.mem_cons.1 hc with rfl | hc
      · rw [← tomlTokenChar_iff]
        simp only [List.mem_cons, Prod.mk.injEq, List.not_mem_nil, or_false] at hl
        rcases hl with ⟨rfl, rfl⟩ | ⟨rfl, rfl⟩ | ⟨rfl, rfl⟩ <;> decide
      · exact digitIn_word (grouped_chars hg c hc)

theorem floatText_shape {S : TomlScalars} {t x : Str} (h : TomlFloatText S t x) : TomlDateShape x := by
  left
  cases h with
  | number hs hd hf he =>
    obtain ⟨c, r, rfl, _⟩ := dec_head hd
    refine ⟨by simp, fun c hc => ?_⟩
    rcases List.mem_append.1 hc with hc | hc
    · exact word_of_sign (sign_word hs c hc)
    · rcases List.mem_append.1 hc with hc | hc
      · exact digitIn_word (grouped_chars hd.1 c hc)
      · rcases List.mem_append.1 hc with hc | hc
        · rcases hf with ⟨_, rfl⟩ | ⟨_, _, _, rfl, hg⟩
          · cases hc
          · rcases List.mem_cons.1 hc with rfl | hc
            · rw [← tomlTokenChar_iff]; decide
            · exact digitIn_word (grouped_chars hg c hc)
        · rcases he with ⟨_, rfl⟩ | ⟨l, _, _, _, _, hl, hs', hg, _, rfl⟩
          · cases hc
          · rcases List.mem_cons.1 hc with rfl | hc
            · rw [← tomlTokenChar_iff]
              rcases hl with rfl | rfl <;> decide
            · rcases List.mem_append.1 hc with hc | hc
              · exact word_of_sign (sign_word hs' c hc)
              · exact digitIn_word (grouped_chars hg c hc)
  | inf hs | nan hs =>
    refine ⟨by simp, fun c hc => ?_⟩
    rcases List.mem_append.1 hc with hc | hc
    · exact word_of_sign (sign_word hs c hc)
    · rw [← tomlTokenChar_iff]
      simp only [List.mem_cons, List.not_mem_nil, or_false] at hc
      rcases hc with rfl | rfl | rfl <;> decide

/-- No integer is a float. -/
theorem intText_not_float {S : TomlScalars} {n : Int} {t x : Str} (hi : TomlIntText n x) (hf : TomlFloatText S t x) : False := by
  have hd : ∀ {sg : Str}, (∀ c ∈ sg, c = '+' ∨ c = '-') → ∀ {ds y}, TomlDec ds y → x = sg ++ y → False := by
    intro sg hsg ds y hy hx
    have hall : ∀ c ∈ x, c.isDigit = true ∨ c = '_' ∨ c = '+' ∨ c = '-' := by
      intro c hc
      rw [hx] at hc
      rcases List.mem_append.1 hc with hc | hc
      · exact .inr (.inr (hsg c hc))
      · rcases grouped_chars hy.1 c hc with h | h
        · exact .inl (digitIn_ten.2 h)
        · exact .inr (.inl h)
    cases hf with
    | @number kept sg ds x f y e z _ hs hd hf he hne h =>
      rcases hf with ⟨_, rfl⟩ | ⟨_, _, _, rfl, _⟩
      · rcases he with ⟨_, rfl⟩ | ⟨l, _, _, _, _, hl, _, _, _, rfl⟩
        · simp at hne
        · have := hall l (by simp)
          rcases hl with rfl | rfl <;> exact absurd this (by decide)
      · exact absurd (hall '.' (by simp)) (by decide)
    | inf => exact absurd (hall 'i' (by simp)) (by decide)
    | nan => exact absurd (hall 'n' (by simp)) (by decide)
  cases hi with
  | plain hs h => exact hd (sign_word (.inl ⟨rfl, hs⟩)) h rfl
  | minus h => exact hd (sg := ['-']) (by simp) h rfl
  | @base l base n ds x hl hg hn =>
    generalize hx : '0' :: l :: x = s at hf
    have hl' : l ≠ '.' ∧ l ≠ 'e' ∧ l ≠ 'E' := by
      simp only [List.mem_cons, Prod.mk.injEq, List.not_mem_nil, or_false] at hl
      rcases hl with ⟨rfl, _⟩ | ⟨rfl, _⟩ | ⟨rfl, _⟩ <;> decide
    have hsg : ∀ {kept sg y : Str}, TomlSignText kept sg → '0' :: l :: x = sg ++ y → y = '0' :: l :: x := by
      intro kept sg y hs h
      rcases hs with ⟨_, rfl | rfl⟩ | ⟨_, rfl⟩
      · exact h.symm
      · exact absurd (List.cons.inj h).1 (by decide)
      · exact absurd (List.cons.inj h).1 (by decide)
    cases hf with
    | @number kept sg ds' x' f y e z _ hs hd hf he hne h =>
      have h1 := hsg hs hx
      obtain ⟨c, r, rfl, hc, h0⟩ := dec_head hd
      obtain ⟨rfl, h2⟩ := List.cons.inj h1
      cases r with
      | cons a b => exact h0 a b rfl
      | nil =>
        rcases hf with ⟨_, rfl⟩ | ⟨_, _, _, rfl, _⟩
        · rcases he with ⟨_, rfl⟩ | ⟨l', _, _, _, _, hl2, _, _, _, rfl⟩
          · simp at hne
          · obtain rfl := (List.cons.inj h2).1
            rcases hl2 with h | h
            · exact hl'.2.1 h
            · exact hl'.2.2 h
        · exact hl'.1 (List.cons.inj h2).1.symm
    | inf hs => exact absurd (List.cons.inj (hsg hs hx)).1 (by decide)
    | nan hs => exact absurd (List.cons.inj (hsg hs hx)).1 (by decide)

end Rops
