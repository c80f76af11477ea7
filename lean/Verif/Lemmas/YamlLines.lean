import Verif.Lemmas.YamlBlocks
import Verif.Spec.YamlGrammar
/-!
# The grammar of YAML: lines and scalars on one line
-/

namespace Rops
open Spec

/-! ## Lines -/

theorem gap_pad (n : Nat) : Gap (yamlPad n) := fun _ h => (List.mem_replicate.1 h).2

theorem gap_eq {g : Str} (h : Gap g) : g = yamlPad g.length := List.eq_replicate_of_mem h

theorem at_iff {m : Nat} {b l : Str} : At m b l ↔ l = yamlPad m ++ b := by
  constructor
  · rintro ⟨g, hg, rfl, rfl⟩
    exact congrArg (· ++ b) (gap_eq hg)
  · rintro rfl
    exact ⟨_, gap_pad m, pad_length m, rfl⟩

theorem parted_iff {t : Str} : blankNext t = true ↔ Parted t := by
  cases t with
  | nil => exact ⟨fun _ => .inl rfl, fun _ => rfl⟩
  | cons c r =>
    constructor
    · intro h
      obtain rfl : c = ' ' := by simpa [blankNext] using h
      exact .inr ⟨r, rfl⟩
    · rintro (h | ⟨r, h⟩)
      · cases h
      · cases h; rfl

/-- A line is its indentation and what comes after it. -/
theorem line_parts (l : Str) : l = yamlPad (indentOf l) ++ bodyOf l := by
  have : l.takeWhile (· == ' ') = yamlPad (indentOf l) :=
    gap_eq fun c hc => by simpa using List.all_eq_true.1 (List.all_takeWhile (p := (· == ' ')) (l := l)) c hc
  rw [← this]
  exact List.takeWhile_append_dropWhile.symm

theorem body_first (l : Str) : ∀ r, bodyOf l ≠ ' ' :: r := by
  intro r h
  unfold bodyOf at h
  induction l with
  | nil => cases h
  | cons c l ih =>
    by_cases hc : c = ' '
    · subst hc
      exact ih ((List.dropWhile_cons_of_pos (p := (· == ' ')) (a := ' ') rfl).symm.trans h)
    · have := (List.dropWhile_cons_of_neg (p := (· == ' ')) (a := c) (l := l) (by simpa using hc)).symm.trans h
      exact hc (List.cons.inj this).1

theorem pad_blank (n : Nat) : (yamlPad n).dropWhile (· == ' ') = [] := by
  induction n with
  | zero => rfl
  | succ n ih => exact (List.dropWhile_cons_of_pos rfl).trans ih

theorem hollow_iff {l : Str} : emptyLine l = true ↔ Hollow l := by
  constructor
  · intro h
    refine ⟨_, gap_pad (indentOf l), ?_⟩
    have hl := line_parts l
    unfold emptyLine at h
    cases hb : bodyOf l with
    | nil => rw [hb, List.append_nil] at hl; exact .inl hl
    | cons c r =>
      rw [hb] at h hl
      obtain rfl : c = '#' := by simpa using h
      exact .inr ⟨r, hl⟩
  · rintro ⟨g, hg, rfl | ⟨c, rfl⟩⟩
    · rw [gap_eq hg]
      unfold emptyLine bodyOf
      rw [pad_blank]
    · rw [gap_eq hg]
      unfold emptyLine bodyOf
      rw [(pad_takeWhile _ (by decide) c).2]
      rfl

theorem tail_iff {t : Str} : lineEnd t = true ↔ Tail t := by
  constructor
  · intro h
    have hl := line_parts t
    unfold lineEnd at h
    change (match bodyOf t with | [] => true | c :: _ => c == '#' && t.head? == some ' ') = true at h
    refine ⟨_, gap_pad (indentOf t), ?_⟩
    cases hb : bodyOf t with
    | nil => rw [hb, List.append_nil] at hl; exact .inl hl
    | cons c r =>
      rw [hb] at h hl
      simp only [Bool.and_eq_true, beq_iff_eq] at h
      obtain ⟨rfl, h2⟩ := h
      refine .inr ⟨fun e => ?_, r, hl⟩
      rw [e] at hl
      rw [hl] at h2
      cases h2
  · rintro ⟨g, hg, rfl | ⟨hne, c, rfl⟩⟩
    · rw [gap_eq hg]
      unfold lineEnd
      rw [pad_blank]
    · obtain ⟨n, rfl⟩ : ∃ n, g = yamlPad (n + 1) := by
        cases g with
        | nil => exact absurd rfl hne
        | cons a g => exact ⟨_, gap_eq hg⟩
      unfold lineEnd
      rw [(pad_takeWhile _ (by decide) c).2]
      rfl

theorem tail_head {t : Str} (h : Tail t) : Parted t := by
  obtain ⟨g, hg, rfl | ⟨hne, c, rfl⟩⟩ := h
  · cases t with
    | nil => exact .inl rfl
    | cons a g => rw [hg a (by simp)]; exact .inr ⟨_, rfl⟩
  · cases g with
    | nil => exact absurd rfl hne
    | cons a g => rw [hg a (by simp)]; exact .inr ⟨_, rfl⟩

/-! ## Plain scalars -/

theorem plainRest_iff {s : Str} {b : Bool} : plainRest b s = true ↔ (b = true → ∀ r, s ≠ '#' :: r) ∧
    (∀ a r, s ≠ a ++ (c!" #" ++ r)) ∧ ∀ a r, s = a ++ ':' :: r → ¬ Parted r := by
  induction s generalizing b with
  | nil => exact ⟨fun _ => ⟨fun _ _ h => (nomatch h), fun a r h => by simp at h, fun a r h => by simp at h⟩, fun _ => rfl⟩
  | cons c s ih =>
    rw [plainRest]
    simp only [Bool.and_eq_true, Bool.not_eq_true', Bool.and_eq_false_iff, beq_eq_false_iff_ne, ih, beq_iff_eq]
    constructor
    · rintro ⟨⟨h1, h2⟩, h3, h4, h5⟩
      refine ⟨fun hb r e => ?_, fun a r e => ?_, fun a r e hr => ?_⟩
      · cases e
        rcases h2 with h2 | h2
        · exact h2 rfl
        · rw [hb] at h2; cases h2
      · cases a with
        | nil => exact h3 (List.cons.inj e).1 r (List.cons.inj e).2
        | cons d a => exact h4 a r (List.cons.inj e).2
      · cases a with
        | nil =>
          cases e
          rcases h1 with h1 | h1
          · exact h1 rfl
          · rw [parted_iff.2 hr] at h1; cases h1
        | cons d a => exact h5 a r (List.cons.inj e).2 hr
    · rintro ⟨h1, h2, h3⟩
      refine ⟨⟨?_, ?_⟩, ?_, ?_, ?_⟩
      · by_cases hc : c = ':'
        · refine .inr (Bool.eq_false_iff.2 fun hb => h3 [] s (by rw [hc]; rfl) (parted_iff.1 hb))
        · exact .inl hc
      · by_cases hc : c = '#'
        · refine .inr (Bool.eq_false_iff.2 fun hb => h1 hb s (by rw [hc]))
        · exact .inl hc
      · rintro rfl r rfl
        exact h2 [] r rfl
      · rintro a r rfl
        exact h2 (c :: a) r rfl
      · rintro a r rfl
        exact h3 (c :: a) r rfl

theorem take_iff {p s : Str} : s.take p.length = p ↔ ∃ b, s = p ++ b := by
  constructor
  · intro h
    exact ⟨s.drop p.length, by rw [← congrArg (· ++ s.drop p.length) h, List.take_append_drop]⟩
  · rintro ⟨b, rfl⟩
    exact List.take_left

theorem documentMark_iff {s : Str} : documentMark s = false ↔ ∀ b, s ≠ c!"---" ++ b ∧ s ≠ c!"..." ++ b := by
  unfold documentMark
  rw [Bool.or_eq_false_iff, beq_eq_false_iff_ne, beq_eq_false_iff_ne]
  have h1 := take_iff (p := c!"---") (s := s)
  have h2 := take_iff (p := c!"...") (s := s)
  change s.take 3 = _ ↔ _ at h1 h2
  rw [ne_eq, ne_eq, h1, h2]
  exact ⟨fun ⟨a, b⟩ c => ⟨fun e => a ⟨c, e⟩, fun e => b ⟨c, e⟩⟩, fun h => ⟨fun ⟨c, e⟩ => (h c).1 e, fun ⟨c, e⟩ => (h c).2 e⟩⟩

theorem indicators_iff {c : Char} : c ∈ yamlIndicators ↔ c ∈ yamlOpeners := Iff.rfl

theorem visible_iff {c : Char} : yamlPrintable c = true ↔ YamlVisible c := by
  unfold yamlPrintable YamlVisible
  have e1 : (' ' ≤ c) ↔ 32 ≤ c.toNat := Iff.rfl
  have e2 : (c ≤ '~') ↔ c.toNat ≤ 126 := Iff.rfl
  have hv := c.valid
  rw [e1, e2]
  simp only [Bool.or_eq_true, Bool.and_eq_true, decide_eq_true_eq, bne_iff_ne, List.mem_cons, List.not_mem_nil, or_false]
  omega

theorem bare_iff {s : Str} : plainAllowed s = true ↔ BareText s := by
  constructor
  · intro h
    obtain ⟨h1, h2, h3, h4, h5⟩ := plainAllowed_parts h
    obtain ⟨c, r, rfl, hc, hs, hb⟩ := plainFirst_cons h1
    obtain ⟨-, g2, g3⟩ := plainRest_iff.1 h2
    refine ⟨fun c hc => visible_iff.1 (List.all_eq_true.1 h4 c hc), ⟨c, r, rfl, hs, hc, fun hm hp => ?_⟩, ?_, ?_, ?_, documentMark_iff.1 h3⟩
    · have := hb (by simpa [or_comm, or_left_comm, or_assoc] using hm)
      rw [parted_iff.2 hp] at this; cases this
    · rintro a e
      rw [e] at h5
      simp at h5
    · intro a b e
      cases a with
      | nil => exact hs (List.cons.inj e).1
      | cons d a => exact g2 a b (List.cons.inj e).2
    · intro a b e hp
      cases a with
      | nil =>
        have := hb (.inr (.inl (List.cons.inj e).1))
        rw [(List.cons.inj e).2, parted_iff.2 hp] at this; cases this
      | cons d a => exact g3 a b (List.cons.inj e).2 hp
  · intro h
    obtain ⟨h1, ⟨c, r, rfl, hs, hc, hm⟩, h3, h4, h5, h6⟩ := h
    unfold plainAllowed
    rw [documentMark_iff.2 h6, List.all_eq_true.2 fun c hc => visible_iff.2 (h1 c hc)]
    have g1 : plainFirst (c :: r) = true := by
      show (!yamlIndicators.contains c && c != ' ' && !((c == '?' || c == ':' || c == '-') && blankNext r)) = true
      have hc' : yamlIndicators.contains c = false := by
        rw [List.contains_eq_mem]; exact decide_eq_false hc
      rw [hc']
      have hp : ((c == '?' || c == ':' || c == '-') && blankNext r) = false := by
        rw [Bool.and_eq_false_iff]
        by_cases hx : c ∈ c!"-?:"
        · exact .inr (Bool.eq_false_iff.2 fun e => hm hx (parted_iff.1 e))
        · refine .inl ?_
          simp only [List.mem_cons, List.not_mem_nil, or_false, not_or] at hx
          simp [hx]
      rw [hp]
      simpa using hs
    have g2 : plainRest false (c :: r).tail = true := by
      refine plainRest_iff.2 ⟨fun e => (nomatch e), fun a b e => ?_, fun a b e => ?_⟩
      · exact h4 (c :: a) b (congrArg (c :: ·) e)
      · exact h5 (c :: a) b (congrArg (c :: ·) e)
    rw [g1, g2]
    have : (c :: r).getLast? ≠ some ' ' := fun e => by
      obtain ⟨a, ha⟩ := List.getLast?_eq_some_iff.1 e
      exact h3 a ha
    simpa using this

/-! ## Quoted scalars -/

theorem single_sound {t s r : Str} (h : readSingle t = some (s, r)) : ∃ q, t = q ++ '\'' :: r ∧ SingleText q s ∧ r.head? ≠ some '\'' := by
  induction t using readSingle.induct generalizing s with
  | case1 => cases h
  | case2 t ih =>
    rw [readSingle] at h
    obtain ⟨x, hx, e⟩ := Option.map_eq_some_iff.1 h
    cases e
    obtain ⟨q, rfl, hq, hr⟩ := ih hx
    exact ⟨_, rfl, .quote hq, hr⟩
  | case3 t hn =>
    have hh : t.head? ≠ some '\'' := by
      intro e
      cases t with
      | nil => cases e
      | cons d t => cases e; exact hn t rfl rfl
    rw [readSingle_end hh] at h
    cases h
    exact ⟨[], rfl, .nil, hh⟩
  | case4 c t hn hc ih =>
    rw [readSingle_other hc] at h
    obtain ⟨x, hx, e⟩ := Option.map_eq_some_iff.1 h
    cases e
    obtain ⟨q, rfl, hq, hr⟩ := ih hx
    exact ⟨c :: q, rfl, .char hc hq, hr⟩

theorem single_complete {q s r : Str} (h : SingleText q s) (hr : r.head? ≠ some '\'') : readSingle (q ++ '\'' :: r) = some (s, r) := by
  induction h with
  | nil => exact readSingle_end hr
  | quote _ ih => rw [List.cons_append, List.cons_append, readSingle, ih]; rfl
  | char hc _ ih => rw [List.cons_append, readSingle_other hc, ih]; rfl

theorem char_number {n : Nat} (h : n.isValidChar) : (Char.ofNat n).toNat = n := by
  unfold Char.ofNat
  rw [dif_pos h]
  rfl

theorem hexChar_iff {ds : Str} {c : Char} : hexChar ds = some c ↔ NumberIn 16 ds c.toNat := by
  rw [numberIn_iff]
  unfold hexChar
  have hd : ds.all (fun c => (hexVal c).isSome) = true ↔ ∀ c ∈ ds, DigitIn 16 c := by
    rw [List.all_eq_true]
    refine forall_congr' fun c => imp_congr_right fun _ => ?_
    rw [Option.isSome_iff_exists]
    exact exists_congr fun d => ⟨fun h => ⟨hexVal_iff.1 h, hexDigit_lt (hexVal_iff.1 h)⟩, fun h => hexVal_iff.2 h.1⟩
  constructor
  · intro h
    split at h
    · rename_i hv
      cases h
      exact ⟨hd.1 hv.1, char_number hv.2⟩
    · cases h
  · rintro ⟨h1, h2⟩
    rw [← h2, if_pos ⟨hd.2 h1, c.valid⟩, Char.ofNat_toNat]

theorem readEscape_iff {e c : Char} : readEscape e = some c ↔ (e, c.toNat) ∈ yamlLetters := by
  constructor
  · intro h
    unfold readEscape at h
    split at h
    · rename_i he
      cases h
      rcases he with rfl | rfl <;> decide
    · obtain ⟨x, hx, rfl⟩ := Option.map_eq_some_iff.1 h
      have hm := List.mem_of_find?_eq_some hx
      obtain rfl : x.1 = e := by simpa using List.find?_some hx
      revert hm
      clear h hx
      have : ∀ x ∈ yamlEscapes, (x.1, x.2.toNat) ∈ yamlLetters := by decide
      exact this x
  · intro h
    have : ∀ x ∈ yamlLetters, readEscape x.1 = some (Char.ofNat x.2) := by decide
    have := this _ h
    rwa [Char.ofNat_toNat] at this

theorem double_complete {q s : Str} (h : DoubleText q s) (r : Str) : readDouble (q ++ '"' :: r) = some (s, r) := by
  induction h with
  | nil => simp [readDouble]
  | char h1 h2 _ ih =>
    rw [List.cons_append]
    simp [readDouble, h1, h2, ih]
  | @letter e c q s he _ ih =>
    rw [List.cons_append, List.cons_append]
    have hr := readEscape_iff.2 he
    have : e ≠ 'x' ∧ e ≠ 'u' ∧ e ≠ 'U' := by
      have : ∀ x ∈ yamlLetters, x.1 ≠ 'x' ∧ x.1 ≠ 'u' ∧ x.1 ≠ 'U' := by decide
      exact this _ he
    simp [readDouble, this, hr, ih]
  | @number e c w ds q s he hl hd _ ih =>
    have hx := hexChar_iff.2 hd
    simp only [yamlWidths, List.mem_cons, Prod.mk.injEq, List.not_mem_nil, or_false] at he
    rcases he with ⟨rfl, rfl⟩ | ⟨rfl, rfl⟩ | ⟨rfl, rfl⟩
    · match ds, hl with
      | [a, b], _ => simp [readDouble, hx, ih]
    · match ds, hl with
      | [a, b, c, d], _ => simp [readDouble, hx, ih]
    · match ds, hl with
      | [a, b, c, d, e, f, g, h], _ => simp [readDouble, hx, ih]

theorem double_sound {t s r : Str} (h : readDouble t = some (s, r)) : ∃ q, t = q ++ '"' :: r ∧ DoubleText q s := by
  have num : ∀ {e : Char} {w : Nat} {ds t s : Str}, (e, w) ∈ yamlWidths → ds.length = w →
      (∀ {s}, readDouble t = some (s, r) → ∃ q, t = q ++ '"' :: r ∧ DoubleText q s) →
      ((hexChar ds).bind fun c => (readDouble t).map fun x => (c :: x.1, x.2)) = some (s, r) →
      ∃ q, '\\' :: e :: (ds ++ t) = q ++ '"' :: r ∧ DoubleText q s := by
    intro e w ds t s he hl ih h
    obtain ⟨c, hc, h⟩ := Option.bind_eq_some_iff.1 h
    obtain ⟨x, hx, e'⟩ := Option.map_eq_some_iff.1 h
    cases e'
    obtain ⟨q, rfl, hq⟩ := ih hx
    exact ⟨_, by rw [← List.append_assoc]; rfl, .number he hl (hexChar_iff.1 hc) hq⟩
  induction t using readDouble.induct generalizing s with
  | case1 => cases h
  | case2 a b t ih => exact num (w := 2) (ds := [a, b]) (by decide) rfl (fun h => ih h) (by rwa [readDouble] at h)
  | case3 a b c d t ih => exact num (w := 4) (ds := [a, b, c, d]) (by decide) rfl (fun h => ih h) (by rwa [readDouble] at h)
  | case4 a b c d e f g k t ih =>
    exact num (w := 8) (ds := [a, b, c, d, e, f, g, k]) (by decide) rfl (fun h => ih h) (by rwa [readDouble] at h)
  | case5 e t h1 h2 h3 ih =>
    rw [readDouble] at h
    · obtain ⟨c, hc, h⟩ := Option.bind_eq_some_iff.1 h
      obtain ⟨x, hx, e'⟩ := Option.map_eq_some_iff.1 h
      cases e'
      obtain ⟨q, rfl, hq⟩ := ih hx
      exact ⟨_, rfl, .letter (readEscape_iff.1 hc) hq⟩
    · exact h1
    · exact h2
    · exact h3
  | case6 t h1 h2 h3 h4 =>
    have : readDouble ('"' :: t) = some ([], t) := by simp [readDouble]
    rw [this] at h
    cases h
    exact ⟨[], rfl, .nil⟩
  | case7 t h1 h2 h3 h4 =>
    cases t with
    | nil => simp [readDouble] at h
    | cons c t => exact (h4 c t rfl rfl).elim
  | case8 c t h1 h2 h3 h4 hq hb ih =>
    have : readDouble (c :: t) = (readDouble t).map fun x => (c :: x.1, x.2) := by simp [readDouble, hq, hb]
    rw [this] at h
    obtain ⟨x, hx, e'⟩ := Option.map_eq_some_iff.1 h
    cases e'
    obtain ⟨q, rfl, hd⟩ := ih hx
    exact ⟨c :: q, rfl, .char hq hb hd⟩

end Rops
