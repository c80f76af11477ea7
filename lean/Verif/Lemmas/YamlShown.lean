import Verif.Spec.YamlShown
import Verif.Lemmas.YamlWords
import Verif.Lemmas.YamlLayout
import Verif.Lemmas.Decimals
import Verif.Lemmas.Shortest
import Verif.Lemmas.TomlShown
import Verif.Lemmas.YamlGrammar
/-!
# Lemmas: how YAML documents are written
-/

namespace Rops
open Spec

theorem asItIs_iff {c : Char} : (yamlPrintable c && c != '"' && c != '\\') = true ↔ AsItIs c := by
  unfold AsItIs
  rw [Bool.and_eq_true, Bool.and_eq_true, visible_iff, bne_iff_ne, bne_iff_ne, and_assoc]

theorem hex_length (w n : Nat) : (yamlHex w n).length = w := by
  induction w generalizing n with
  | zero => rfl
  | succ w ih => rw [yamlHex, List.length_append, ih]; rfl

theorem hex_capitals (w n : Nat) : ∀ d ∈ yamlHex w n, ¬ ('a' ≤ d ∧ d ≤ 'f') := by
  induction w generalizing n with
  | zero => intro d h; cases h
  | succ w ih =>
    intro d h
    rcases List.mem_append.1 h with h | h
    · exact ih _ _ h
    · rw [List.mem_singleton.1 h]
      have : ∀ k : Fin 16, ¬ ('a' ≤ hexDigit k ∧ hexDigit k ≤ 'f') := by decide
      exact this ⟨n % 16, Nat.mod_lt _ (by omega)⟩

theorem escape_shown (c : Char) : ShownChar c (yamlEscape c) := by
  unfold yamlEscape
  split
  · rename_i h
    exact .self (asItIs_iff.1 h)
  · rename_i h
    have hn : ¬ AsItIs c := fun x => h (asItIs_iff.2 x)
    split
    · rename_i e he
      have hm := List.mem_of_find?_eq_some he
      have hc : e.2 = c := by simpa using List.find?_some he
      have : ∀ x ∈ yamlEscapes, (x.1, x.2.toNat) ∈ yamlLetters := by decide
      have := this _ hm
      rw [hc] at this
      exact .letter hn this
    · rename_i he
      have hl : ∀ e, (e, c.toNat) ∉ yamlLetters := by
        intro e hm
        have h1 : ∀ x ∈ yamlLetters, x.2 = 32 ∨ x.2 = 47 ∨ (x.1, Char.ofNat x.2) ∈ yamlEscapes := by decide
        rcases h1 _ hm with h1 | h1 | h1
        · have : c = ' ' := Char.toNat_inj.1 h1
          exact hn (asItIs_iff.1 (by rw [this]; decide))
        · have : c = '/' := Char.toNat_inj.1 h1
          exact hn (asItIs_iff.1 (by rw [this]; decide))
        · rw [Char.ofNat_toNat] at h1
          exact absurd (List.find?_eq_none.1 he _ h1) (by simp)
      have hw : ∀ {n : Nat}, (∀ k, (k = 2 ∨ k = 4 ∨ k = 8) → c.toNat < 16 ^ k → n ≤ k) → ∀ e' w', (e', w') ∈ yamlWidths → c.toNat < 16 ^ w' → n ≤ w' := by
        intro n hk e' w' hm hlt
        refine hk w' ?_ hlt
        have : ∀ x ∈ yamlWidths, x.2 = 2 ∨ x.2 = 4 ∨ x.2 = 8 := by decide
        exact this _ hm
      split
      · exact .number hn hl (w := 2) (by decide) (hex_length _ _) (hexChar_iff.1 (hexChar_hex 2 c (by omega))) (hex_capitals _ _)
          (hw fun k hk _ => by omega)
      · split
        · exact .number hn hl (w := 4) (by decide) (hex_length _ _) (hexChar_iff.1 (hexChar_hex 4 c (by omega))) (hex_capitals _ _)
            (hw fun k hk hlt => by rcases hk with rfl | rfl | rfl <;> omega)
        · exact .number hn hl (w := 8) (by decide) (hex_length _ _) (hexChar_iff.1 (hexChar_hex 8 c (char_small c))) (hex_capitals _ _)
            (hw fun k hk hlt => by rcases hk with rfl | rfl | rfl <;> omega)

theorem double_shown (s : Str) : ShownDouble (s.flatMap yamlEscape) s := by
  induction s with
  | nil => exact .nil
  | cons c s ih => exact .cons (escape_shown c) ih

theorem single_shown (s : Str) : SingleText (s.flatMap fun c => if c = '\'' then c!"''" else [c]) s := by
  induction s with
  | nil => exact .nil
  | cons c s ih =>
    rw [List.flatMap_cons]
    split
    · rename_i h
      rw [h]
      exact .quote ih
    · rename_i h
      exact .char h ih

theorem spaceBreak_iff {s : Str} : spaceBreak s = false ↔ (∀ a b, s ≠ a ++ (c!" \n" ++ b)) ∧ ∀ a, s ≠ a ++ c!" " := by
  induction s with
  | nil => simp [spaceBreak]
  | cons c r ih =>
    rw [spaceBreak.eq_def]
    simp only
    rw [Bool.or_eq_false_iff, ih]
    constructor
    · rintro ⟨h0, h1, h2⟩
      constructor
      · intro a b e
        cases a with
        | nil => cases e; simp at h0
        | cons d a => cases e; exact h1 a b rfl
      · intro a e
        cases a with
        | nil => cases e; simp at h0
        | cons d a => cases e; exact h2 a rfl
    · rintro ⟨h1, h2⟩
      refine ⟨?_, fun a b e => h1 (c :: a) b (by rw [e]; rfl), fun a e => h2 (c :: a) (by rw [e]; rfl)⟩
      by_cases hc : c = ' '
      · subst hc
        cases r with
        | nil => exact absurd rfl (h2 [])
        | cons d r =>
          by_cases hd : d = '\n'
          · subst hd; exact absurd rfl (h1 [] r)
          · simp [hd]
      · simp [hc]

theorem blocky_iff {s : Str} : literalAllowed s = true ↔ Blocky s := by
  unfold literalAllowed Blocky
  rw [Bool.and_eq_true, Bool.not_eq_true', spaceBreak_iff, List.all_eq_true]
  refine and_congr (forall_congr' fun c => imp_congr_right fun _ => ?_) Iff.rfl
  rw [Bool.or_eq_true, visible_iff, beq_iff_eq]

theorem flatten_join (ls : List Str) : (ls.map (· ++ c!"\n")).flatten = yamlJoin ls := by
  rw [yamlJoin, List.flatMap_def]

theorem split_one {c : Char} (hc : c ≠ '\n') (s : Str) : ∀ cur, yamlSplit cur (s ++ [c, '\n']) = yamlSplit cur (s ++ [c]) := by
  induction s with
  | nil => intro cur; simp [yamlSplit, hc]
  | cons d s ih =>
    intro cur
    by_cases hd : d = '\n'
    · simp [yamlSplit, hd, ih]
    · simp [yamlSplit, hd, ih]

theorem literal_shown {s : Str} (h : s ≠ []) : ShownLiteral s (literalChomp s) (yamlSplit [] s) := by
  have hl : ∀ t, LinesText (t ++ c!"\n") (yamlSplit [] (t ++ ['\n'])) := fun t =>
    ⟨split_noBreak _ [] (by simp), by rw [flatten_join]; exact (split_ends t []).symm⟩
  obtain ⟨a, c, rfl⟩ : ∃ a c, s = a ++ [c] := ⟨s.dropLast, s.getLast h, (List.dropLast_concat_getLast h).symm⟩
  by_cases hc : c = '\n'
  · subst hc
    by_cases ha : a = []
    · subst ha
      exact .keep (.inl rfl) (hl [])
    · obtain ⟨b, d, rfl⟩ : ∃ b d, a = b ++ [d] := ⟨a.dropLast, a.getLast ha, (List.dropLast_concat_getLast ha).symm⟩
      by_cases hd : d = '\n'
      · subst hd
        have : literalChomp (b ++ ['\n'] ++ ['\n']) = c!"+" := by
          unfold literalChomp
          rw [List.reverse_append, List.reverse_append]
          rfl
        rw [this]
        exact .keep (.inr ⟨b, by simp⟩) (hl _)
      · have : literalChomp (b ++ [d] ++ ['\n']) = [] := by
          unfold literalChomp
          rw [List.reverse_append, List.reverse_append]
          simp only [List.reverse_singleton, List.singleton_append]
          split <;> simp_all
        rw [this]
        exact .clip (a := b) (c := d) (by simp) hd (hl _)
  · have : literalChomp (a ++ [c]) = c!"-" := by
      unfold literalChomp
      rw [List.reverse_append]
      simp only [List.reverse_singleton, List.singleton_append]
      split <;> simp_all
    rw [this]
    refine .strip (fun b e => hc ?_) ?_
    · simpa using (List.append_inj_right' e rfl)
    · rw [← split_one hc]
      have := hl (a ++ [c])
      rw [List.append_assoc a [c] ['\n']] at this ⊢
      exact this

theorem hint_shown (s : Str) : ShownHint s (literalHint s) := by
  cases s with
  | nil => exact .inr ⟨fun r => ⟨nofun, nofun⟩, rfl⟩
  | cons c r =>
    rw [literalHint]
    split
    · rename_i h
      refine .inl ⟨⟨r, ?_⟩, rfl⟩
      rcases h with rfl | rfl
      · exact .inl rfl
      · exact .inr rfl
    · rename_i h
      exact .inr ⟨fun t => ⟨fun e => h (.inl (List.cons.inj e).1), fun e => h (.inr (List.cons.inj e).1)⟩, rfl⟩

theorem visible_all {s : Str} : s.all yamlPrintable = true ↔ ∀ c ∈ s, YamlVisible c := by
  rw [List.all_eq_true]
  exact forall_congr' fun c => imp_congr_right fun _ => visible_iff

theorem break_hidden : ¬ YamlVisible '\n' := by rw [← visible_iff]; decide

theorem quoted_shown (s : Str) : QuotedShown s (quotedForm s).1 (quotedForm s).2 := by
  unfold quotedForm
  split
  · rename_i hn
    split
    · rename_i hl
      exact .literal hn (blocky_iff.1 hl) (hint_shown s) (literal_shown fun e => by rw [e] at hn; cases hn)
    · rename_i hl
      exact .double ⟨_, hn, break_hidden⟩ (fun _ hb => hl (blocky_iff.2 hb)) (double_shown s)
  · rename_i hn
    split
    · rename_i hv
      exact .single (visible_all.1 hv) (single_shown s)
    · rename_i hv
      refine .double ?_ (fun h => absurd h hn) (double_shown s)
      refine Classical.byContradiction fun hx => hv (visible_all.2 fun c hc => Classical.byContradiction fun hy => hx ⟨c, hc, hy⟩)

theorem quoted_line {s : Str} (h : '\n' ∉ s) : (quotedForm s).2 = [] := by
  unfold quotedForm
  rw [if_neg h]
  split <;> rfl

theorem shownPlain_iff {s : Str} : ShownPlain s ↔ yamlStyle s = .any ∧ plainAllowed s = true := by
  rw [style_any_iff, bare_iff, yamlPlain_iff, ← oldTruth_iff]
  exact ⟨fun ⟨a, b, c, d⟩ => ⟨⟨c, fun h => break_hidden (a.printable _ h), d, b⟩, a⟩, fun ⟨⟨a, _, c, d⟩, e⟩ => ⟨e, d, a, c⟩⟩

theorem float_shown {f : F64} (h : InRange f) : FloatShown f (yamlFloat f.show) := by
  unfold yamlFloat
  rw [parse_show h]
  cases f with
  | nan => exact .nan
  | infinite n => cases n <;> first | exact .infinite | exact .negative
  | finite neg v =>
    show FloatShown _ (signText neg ++ (if v = 0 then c!"0.0" else ryuDecimal (shortest v).1 (shortest v).2))
    by_cases h0 : v = 0
    · subst h0
      exact .zero
    · rw [if_neg h0]
      obtain ⟨n, e, h1, h2⟩ := shortest_decimal h h0 (stands_ryu _ _)
      exact .decimal h0 h1 h2

/-- The form of a scalar. -/
def shownForm : Yaml → Option (Str × List Str)
  | .null => some (c!"null", [])
  | .bool b => some (if b then c!"true" else c!"false", [])
  | .num n => some (yamlNumber n, [])
  | .str s => some (if yamlStyle s = .any then freeForm s else quotedForm s)
  | _ => none

theorem scalar_shown {v : Yaml} (hv : YamlSound v) {x : Str × List Str} (h : shownForm v = some x) : ScalarShown v x.1 x.2 := by
  cases v with
  | null => cases h; exact .null
  | bool b => cases h; cases b <;> first | exact .false | exact .true
  | num n =>
    cases h
    cases n with
    | posInt n =>
      refine .natural (decimal_number (decimal_toDigits _)) ?_
      by_cases h0 : n.toNat = 0
      · exact .inl (by show Nat.toDigits 10 n.toNat = _; rw [h0]; rfl)
      · exact .inr (head_toDigits h0)
    | negInt n =>
      have hn : n.toInt < 0 := hv
      show ScalarShown _ (showInt n) []
      unfold showInt
      simp only [hn, if_true]
      exact .negative (decimal_number (decimal_toDigits _)) (head_toDigits (by omega)) (by omega)
    | float f =>
      obtain ⟨x, hx, rfl⟩ := hv
      exact .float hx (float_shown hx)
  | str s =>
    cases h
    split
    · rename_i hs
      unfold freeForm
      split
      · rename_i hp; exact .plain (shownPlain_iff.2 ⟨hs, hp⟩)
      · rename_i hp; exact .quoted (fun x => hp (shownPlain_iff.1 x).2) (quoted_shown s)
    · rename_i hs
      exact .quoted (fun x => hs (shownPlain_iff.1 x).1) (quoted_shown s)
  | _ => cases h

theorem below_shown (m : Nat) (cs : List Str) : BelowLines m cs (literalLines m cs) := by
  induction cs with
  | nil => exact .nil
  | cons c cs ih =>
    show BelowLines m (c :: cs) ((if c = [] then [] else yamlPad m ++ c) :: literalLines m cs)
    split
    · rename_i h; rw [h]; exact .empty ih
    · rename_i h; exact .line h (at_iff.2 rfl) ih

theorem form_lines {v : Yaml} {x : Str × List Str} (h : shownForm v = some x) (m : Nat) :
    v.node.lines m = (yamlPad m ++ x.1) :: literalLines m x.2 ∧ ∀ k, v.node.afterKey m k = (k ++ (c!": " ++ x.1)) :: literalLines (m + 2) x.2 := by
  cases v with
  | null => cases h; exact ⟨rfl, fun _ => rfl⟩
  | bool b => cases h; exact ⟨rfl, fun _ => rfl⟩
  | num n => cases h; exact ⟨rfl, fun _ => rfl⟩
  | str s =>
    cases h
    rw [Yaml.node, yamlTextNode]
    split <;> exact ⟨rfl, fun _ => rfl⟩
  | _ => cases h

theorem brief_iff {s : Str} : simpleText s = true ↔ BriefText s := by
  unfold simpleText BriefText
  rw [Bool.and_eq_true, List.all_eq_true, decide_eq_true_eq]
  refine and_congr (forall_congr' fun c => imp_congr_right fun _ => ?_) Iff.rfl
  have e1 : c = '\n' ↔ c.toNat = 10 := ⟨fun h => by rw [h]; rfl, fun h => Char.toNat_inj.1 h⟩
  have e2 : c = '\r' ↔ c.toNat = 13 := ⟨fun h => by rw [h]; rfl, fun h => Char.toNat_inj.1 h⟩
  simp only [Bool.and_eq_true, bne_iff_ne, ne_eq, List.mem_cons, List.not_mem_nil, or_false, not_or, e1, e2]
  exact ⟨fun ⟨⟨⟨⟨a, b⟩, c⟩, d⟩, e⟩ => ⟨a, b, c, d, e⟩, fun ⟨a, b, c, d, e⟩ => ⟨⟨⟨⟨a, b⟩, c⟩, d⟩, e⟩⟩

theorem key_brief {k : Yaml} (hk : YamlSound k) (hu : Untagged k) {t : Str} (h : k.node.keyText = some t) : ScalarShown k t [] ∧ BriefKey k t := by
  have hp : ∀ {s : Str}, (if simpleText s = true then some s else none) = some t → t = s ∧ BriefText t := fun h => by
    obtain ⟨h1, h2⟩ := ifSome h
    exact ⟨h2.symm, h2 ▸ brief_iff.1 h1⟩
  cases k with
  | null =>
    obtain ⟨e, hb⟩ := hp (s := c!"null") h
    exact ⟨e ▸ .null, hb⟩
  | bool b =>
    obtain ⟨e, hb⟩ := hp (s := if b then c!"true" else c!"false") h
    exact ⟨e ▸ scalar_shown hk rfl, hb⟩
  | num n =>
    obtain ⟨e, hb⟩ := hp (s := yamlNumber n) h
    exact ⟨e ▸ scalar_shown hk rfl, hb⟩
  | str s =>
    rw [Yaml.node, yamlTextNode] at h
    have hx := scalar_shown hk (x := if yamlStyle s = .any then freeForm s else quotedForm s) rfl
    split at h <;> rename_i hs
    · obtain ⟨h1, h2⟩ := ifSome (show (if simpleText s = true then some (freeForm s).1 else none) = some t from h)
      rw [if_pos hs] at hx
      have hb := brief_iff.1 h1
      have e : (freeForm s).2 = [] := by
        unfold freeForm
        split
        · rfl
        · exact quoted_line fun hm => (hb.1 _ hm) (by decide)
      rw [e, h2] at hx
      exact ⟨hx, hb⟩
    · obtain ⟨h1, h2⟩ := ifSome (show (if simpleText s = true then some (quotedForm s).1 else none) = some t from h)
      rw [if_neg hs] at hx
      have hb := brief_iff.1 h1
      rw [quoted_line fun hm => (hb.1 _ hm) (by decide), h2] at hx
      exact ⟨hx, hb⟩
  | seq l => cases h
  | map l => cases h
  | tagged t v => exact hu.elim

theorem key_long {k : Yaml} (hk : YamlSound k) (h : k.node.keyText = none) : LongKey k := by
  have hp : ∀ {s : Str} {t : Str}, (if simpleText s = true then some t else none) = none → ¬ BriefText s := fun h hb => by
    rw [if_pos (brief_iff.2 hb)] at h
    cases h
  cases k with
  | null => exact ⟨_, .null, hp h⟩
  | bool b => exact ⟨_, scalar_shown hk rfl, hp h⟩
  | num n => exact ⟨_, scalar_shown hk rfl, hp h⟩
  | str s =>
    rw [Yaml.node, yamlTextNode] at h
    split at h
    · exact hp h
    · exact hp h
  | seq l => trivial
  | map l => trivial
  | tagged t v => trivial

theorem mark_two {m : Nat} (c : Char) (b : Str) (r : List Str) :
    markLine m c ((yamlPad (m + 2) ++ b) :: r) = (yamlPad m ++ ([c, ' '] ++ b)) :: r := by
  have : (yamlPad (m + 2) ++ b).drop (m + 1) = ' ' :: b := by
    unfold yamlPad
    rw [List.drop_append_of_le_length (by simp)]
    simp
  rw [markLine, this]
  rfl

theorem pad_at {m : Nat} {b : Str} : At m b (yamlPad m ++ b) := at_iff.2 rfl

theorem form_shown {v : Yaml} (hs : YamlSound v) {x : Str × List Str} (h : shownForm v = some x) (m : Nat) :
    (NodeLines m v (v.node.lines m) ∧ ∃ b r, v.node.lines m = (yamlPad m ++ b) :: r) ∧
    ∀ k, ∃ u r, ValueLines m v u r ∧ v.node.afterKey m k = (k ++ (c!":" ++ u)) :: r := by
  obtain ⟨e, e'⟩ := form_lines h m
  have hx := scalar_shown hs h
  refine ⟨⟨?_, _, _, e⟩, fun k => ⟨_, _, .scalar hx (below_shown _ _), e' k⟩⟩
  rw [e]
  exact .scalar hx pad_at (below_shown _ _)

mutual
theorem node_shown : ∀ (v : Yaml), YamlSound v → Untagged v → ∀ m, (NodeLines m v (v.node.lines m) ∧ ∃ b r, v.node.lines m = (yamlPad m ++ b) :: r) ∧
    ∀ k, ∃ u r, ValueLines m v u r ∧ v.node.afterKey m k = (k ++ (c!":" ++ u)) :: r
  | .null, hs, _, m => form_shown hs rfl m
  | .bool _, hs, _, m => form_shown hs rfl m
  | .num _, hs, _, m => form_shown hs rfl m
  | .str _, hs, _, m => form_shown hs rfl m
  | .seq [], _, _, m => ⟨⟨.noItems pad_at, _, _, rfl⟩, fun _ => ⟨_, _, .noItems, rfl⟩⟩
  | .map [], _, _, m => ⟨⟨.noEntries pad_at, _, _, rfl⟩, fun _ => ⟨_, _, .noEntries, rfl⟩⟩
  | .seq (v :: l), hs, hu, m =>
    have h := items_shown (v :: l) hs hu m
    ⟨⟨.seq nofun h.1, h.2 nofun⟩, fun _ => ⟨_, _, .seq nofun h.1, by rw [List.append_nil]; rfl⟩⟩
  | .map (e :: l), hs, hu, m =>
    have h := entries_shown (e :: l) hs.2 hu m
    ⟨⟨.map nofun h.1, h.2 nofun⟩, fun _ => ⟨_, _, .map nofun (entries_shown (e :: l) hs.2 hu (m + 2)).1, by rw [List.append_nil]; rfl⟩⟩
  | .tagged _ _, _, hu, _ => hu.elim
theorem items_shown : ∀ (l : List Yaml), YamlSoundSeq l → UntaggedSeq l → ∀ m, ItemLines m l (YamlNode.seqLines (Yaml.nodes l) m) ∧
    (l ≠ [] → ∃ b r, YamlNode.seqLines (Yaml.nodes l) m = (yamlPad m ++ b) :: r)
  | [], _, _, _ => ⟨.nil, fun h => absurd rfl h⟩
  | v :: l, hs, hu, m => by
    obtain ⟨⟨h1, b, r, e⟩, _⟩ := node_shown v hs.1 hu.1 (m + 2)
    have h2 := (items_shown l hs.2 hu.2 m).1
    rw [Yaml.nodes, YamlNode.seqLines, e, mark_two]
    rw [e] at h1
    exact ⟨.cons h1 pad_at pad_at h2, fun _ => ⟨_, _, rfl⟩⟩
theorem entries_shown : ∀ (l : List (Yaml × Yaml)), YamlSoundMap l → UntaggedMap l → ∀ m, EntryLines m l (YamlNode.mapLines (Yaml.entryNodes l) m) ∧
    (l ≠ [] → ∃ b r, YamlNode.mapLines (Yaml.entryNodes l) m = (yamlPad m ++ b) :: r)
  | [], _, _, _ => ⟨.nil, fun h => absurd rfl h⟩
  | (k, v) :: l, hs, hu, m => by
    have h2 := (entries_shown l hs.2.2 hu.2.2 m).1
    rw [Yaml.entryNodes, YamlNode.mapLines]
    cases hk : k.node.keyText with
    | some t =>
      obtain ⟨u, r, hv, e⟩ := (node_shown v hs.2.1 hu.2.1 m).2 (yamlPad m ++ t)
      obtain ⟨h3, h4⟩ := key_brief hs.1 hu.1 hk
      simp only [e]
      rw [List.append_assoc]
      exact ⟨.brief h3 h4 hv pad_at h2, fun _ => ⟨_, _, rfl⟩⟩
    | none =>
      obtain ⟨⟨h3, b, r, e⟩, _⟩ := node_shown k hs.1 hu.1 (m + 2)
      obtain ⟨⟨h4, b', r', e'⟩, _⟩ := node_shown v hs.2.1 hu.2.1 (m + 2)
      simp only [e, e', mark_two]
      rw [e] at h3
      rw [e'] at h4
      refine ⟨?_, fun _ => ⟨_, _, rfl⟩⟩
      have := EntryLines.long (key_long hs.1 hk) h3 pad_at pad_at h4 pad_at pad_at h2
      simpa using this
end

/-! ## No other text -/

theorem hexDigit_same {c c' : Char} {d : Nat} (h : HexDigit c d) (h' : HexDigit c' d) (hc : ¬ ('a' ≤ c ∧ c ≤ 'f')) (hc' : ¬ ('a' ≤ c' ∧ c' ≤ 'f')) :
    c = c' := by
  have low : ∀ d : Fin 16, 10 ≤ d.1 → ('a' ≤ Char.ofNat (87 + d.1) ∧ Char.ofNat (87 + d.1) ≤ 'f') := by decide
  rcases h with ⟨h1, rfl⟩ | ⟨h1, h2, rfl | rfl⟩
  · rcases h' with ⟨_, rfl⟩ | ⟨h3, _⟩
    · rfl
    · omega
  · rcases h' with ⟨h3, _⟩ | ⟨_, _, rfl | rfl⟩
    · omega
    · rfl
    · exact absurd (low ⟨d, h2⟩ h1) hc'
  · exact absurd (low ⟨d, h2⟩ h1) hc

theorem hex_same {x : Str} {n : Nat} (h : NumberIn 16 x n) : ∀ {y : Str}, NumberIn 16 y n → x.length = y.length →
    (∀ d ∈ x, ¬ ('a' ≤ d ∧ d ≤ 'f')) → (∀ d ∈ y, ¬ ('a' ≤ d ∧ d ≤ 'f')) → x = y := by
  induction h with
  | nil => intro y _ hl _ _; exact (List.eq_nil_of_length_eq_zero hl.symm).symm
  | @snoc x n d c hx hd hlt ih =>
    intro y hy hl h1 h2
    generalize hm : n * 16 + d = m at hy
    cases hy with
    | nil => simp at hl
    | @snoc y n' d' c' hy hd' hlt' =>
      obtain rfl : n = n' := by omega
      obtain rfl : d = d' := by omega
      rw [ih hy (by simpa using hl) (fun e he => h1 e (List.mem_append_left _ he)) (fun e he => h2 e (List.mem_append_left _ he)),
        hexDigit_same hd hd' (h1 c (by simp)) (h2 c' (by simp))]

theorem letters_same : ∀ x ∈ yamlLetters, ∀ y ∈ yamlLetters, x.2 = y.2 → x.1 = y.1 := by decide

theorem widths_same : ∀ x ∈ yamlWidths, ∀ y ∈ yamlWidths, x.2 = y.2 → x.1 = y.1 := by decide

theorem shownChar_only {c : Char} {x y : Str} (h : ShownChar c x) (h' : ShownChar c y) : x = y := by
  cases h with
  | self h =>
    cases h' with
    | self => rfl
    | letter hn => exact absurd h hn
    | number hn => exact absurd h hn
  | letter hn he =>
    cases h' with
    | self h => exact absurd h hn
    | letter _ he' => exact congrArg (fun e => ['\\', e]) (letters_same _ he _ he' rfl)
    | number _ hl => exact absurd he (hl _)
  | @number e w ds hn hl hw hd hx hc hm =>
    cases h' with
    | self h => exact absurd h hn
    | letter _ he => exact absurd he (hl _)
    | @number e' w' ds' _ _ hw' hd' hx' hc' hm' =>
      have a := hm _ _ hw' (hd' ▸ numberIn_lt (by omega) hx')
      have b := hm' _ _ hw (hd ▸ numberIn_lt (by omega) hx)
      obtain rfl : w = w' := by omega
      rw [show e = e' from widths_same _ hw _ hw' rfl, hex_same hx hx' (hd.trans hd'.symm) hc hc']

theorem shownDouble_only {s x y : Str} (h : ShownDouble x s) (h' : ShownDouble y s) : x = y := by
  induction h generalizing y with
  | nil => cases h'; rfl
  | cons hc _ ih =>
    cases h' with
    | cons hc' h' => rw [shownChar_only hc hc', ih h']

theorem singleText_only {s x y : Str} (h : SingleText x s) (h' : SingleText y s) : x = y := by
  induction h generalizing y with
  | nil => cases h'; rfl
  | quote _ ih =>
    cases h' with
    | quote h' => rw [ih h']
    | char hc => exact absurd rfl hc
  | char hc _ ih =>
    cases h' with
    | quote h' => exact absurd rfl hc
    | char _ h' => rw [ih h']

theorem linesText_only {s : Str} {x y : List Str} (h : LinesText s x) (h' : LinesText s y) : x = y :=
  (lines_iff.1 h).2.symm.trans (lines_iff.1 h').2

theorem ends_same {a b : Str} {c d : Char} (h : a ++ [c] = b ++ [d]) : a = b ∧ c = d :=
  have := List.append_inj' h rfl
  ⟨this.1, (List.cons.inj this.2).1⟩

theorem shownLiteral_only {s x y : Str} {ls ls' : List Str} (h : ShownLiteral s x ls) (h' : ShownLiteral s y ls') : x = y ∧ ls = ls' := by
  have hk : (s = c!"\n" ∨ ∃ a, s = a ++ c!"\n\n") → ∃ a, s = a ++ c!"\n" := by
    rintro (rfl | ⟨a, rfl⟩)
    · exact ⟨[], rfl⟩
    · exact ⟨a ++ c!"\n", by simp⟩
  have hc : ∀ {a : Str} {c : Char}, s = a ++ [c, '\n'] → c ≠ '\n' → ¬ (s = c!"\n" ∨ ∃ a, s = a ++ c!"\n\n") := by
    rintro a c rfl hc (h | ⟨b, h⟩)
    · have := congrArg List.length h
      simp at this
    · have h : (a ++ [c]) ++ ['\n'] = (b ++ ['\n']) ++ ['\n'] := by simpa using h
      exact hc (ends_same (ends_same h).1).2
  cases h with
  | strip hs hl =>
    cases h' with
    | strip _ hl' => exact ⟨rfl, linesText_only hl hl'⟩
    | @clip a c _ e => exact absurd (by rw [e]; simp) (hs (a ++ [c]))
    | keep e => exact absurd (hk e).choose_spec (hs _)
  | @clip a c _ e hn hl =>
    cases h' with
    | strip hs => exact absurd (by rw [e]; simp) (hs (a ++ [c]))
    | clip _ _ hl' => exact ⟨rfl, linesText_only hl hl'⟩
    | keep e' => exact absurd e' (hc e hn)
  | keep e hl =>
    cases h' with
    | strip hs => exact absurd (hk e).choose_spec (hs _)
    | clip e' hn => exact absurd e (hc e' hn)
    | keep _ hl' => exact ⟨rfl, linesText_only hl hl'⟩

theorem shownHint_only {s x y : Str} (h : ShownHint s x) (h' : ShownHint s y) : x = y := by
  rcases h with ⟨⟨r, hr⟩, rfl⟩ | ⟨hr, rfl⟩
  · rcases h' with ⟨_, rfl⟩ | ⟨hr', rfl⟩
    · rfl
    · rcases hr with hr | hr
      · exact absurd hr (hr' r).1
      · exact absurd hr (hr' r).2
  · rcases h' with ⟨⟨r, hr'⟩, rfl⟩ | ⟨_, rfl⟩
    · rcases hr' with hr' | hr'
      · exact absurd hr' (hr r).1
      · exact absurd hr' (hr r).2
    · rfl

theorem quotedShown_only {s x y : Str} {ls ls' : List Str} (h : QuotedShown s x ls) (h' : QuotedShown s y ls') : x = y ∧ ls = ls' := by
  cases h with
  | single hv h =>
    cases h' with
    | single _ h' => exact ⟨by rw [singleText_only h h'], rfl⟩
    | literal hn => exact absurd (hv _ hn) break_hidden
    | double he => obtain ⟨c, hc, hx⟩ := he; exact absurd (hv c hc) hx
  | literal hn hb hh hl =>
    cases h' with
    | single hv => exact absurd (hv _ hn) break_hidden
    | literal _ _ hh' hl' =>
      obtain ⟨e, e'⟩ := shownLiteral_only hl hl'
      exact ⟨by rw [e, shownHint_only hh hh'], e'⟩
    | double _ hx => exact absurd hb (hx hn)
  | double he hx h =>
    cases h' with
    | single hv => obtain ⟨c, hc, hx⟩ := he; exact absurd (hv c hc) hx
    | literal hn hb => exact absurd hb (hx hn)
    | double _ _ h' => exact ⟨by rw [shownDouble_only h h'], rfl⟩

theorem number_pos {x : Str} {n : Nat} (h : NumberIn 10 x n) (hx : ∃ c r, x = c :: r ∧ c ≠ '0') : 0 < n := by
  induction h with
  | nil => obtain ⟨c, r, e, _⟩ := hx; cases e
  | @snoc x n d c h hd hlt ih =>
    obtain ⟨a, r, e, ha⟩ := hx
    cases x with
    | nil =>
      cases e
      rcases hd with ⟨_, rfl⟩ | ⟨h10, _⟩
      · cases d with
        | zero => exact absurd rfl ha
        | succ d => omega
      · omega
    | cons b x =>
      obtain ⟨rfl, _⟩ := List.cons.inj e
      have := ih ⟨b, x, rfl, ha⟩
      omega

theorem number_only {x : Str} {n : Nat} (h : NumberIn 10 x n) (hx : ∃ c r, x = c :: r ∧ c ≠ '0') :
    ∀ {y : Str}, NumberIn 10 y n → (∃ c r, y = c :: r ∧ c ≠ '0') → x = y := by
  induction h with
  | nil => obtain ⟨c, r, e, _⟩ := hx; cases e
  | @snoc x n d c h hd hlt ih =>
    intro y hy hy0
    generalize hm : n * 10 + d = m at hy
    cases hy with
    | nil => obtain ⟨c, r, e, _⟩ := hy0; cases e
    | @snoc y n' d' c' hy hd' hlt' =>
      obtain rfl : n = n' := by omega
      obtain rfl : d = d' := by omega
      rw [digit_unique hd hd' hlt]
      have part : ∀ {z : Str} {e : Char}, z ≠ [] → (∃ c r, z ++ [e] = c :: r ∧ c ≠ '0') → ∃ c r, z = c :: r ∧ c ≠ '0' := by
        rintro (_ | ⟨b, z⟩) e hz ⟨c, r, h1, h2⟩
        · exact absurd rfl hz
        · exact ⟨b, z, rfl, (List.cons.inj h1).1 ▸ h2⟩
      by_cases h0 : x = [] <;> by_cases h0' : y = []
      · rw [h0, h0']
      · have := number_pos hy (part h0' hy0)
        rw [h0] at h
        have := numberIn_unique h .nil
        omega
      · have := number_pos h (part h0 hx)
        rw [h0'] at hy
        have := numberIn_unique hy .nil
        omega
      · rw [ih (part h0 hx) hy (part h0' hy0)]

theorem scalar_only {v : Yaml} (hf : NoFloats v) {x y : Str} {ls ls' : List Str} (h : ScalarShown v x ls) (h' : ScalarShown v y ls') : x = y ∧ ls = ls' := by
  have zero : ∀ {x : Str} {n : Nat}, NumberIn 10 x n → (x = c!"0" ∨ ∃ c r, x = c :: r ∧ c ≠ '0') →
      ∀ {y : Str}, NumberIn 10 y n → (y = c!"0" ∨ ∃ c r, y = c :: r ∧ c ≠ '0') → x = y := by
    rintro x n h (rfl | hx) y h' (rfl | hy)
    · rfl
    · obtain rfl : n = 0 := (numberIn_iff.1 h).2
      have := number_pos h' hy
      omega
    · obtain rfl : n = 0 := (numberIn_iff.1 h').2
      have := number_pos h hx
      omega
    · exact number_only h hx h' hy
  cases h with
  | null => cases h'; exact ⟨rfl, rfl⟩
  | true => cases h'; exact ⟨rfl, rfl⟩
  | false => cases h'; exact ⟨rfl, rfl⟩
  | natural h1 h2 =>
    cases h' with
    | natural h1' h2' => exact ⟨zero h1 h2 h1' h2', rfl⟩
  | negative h1 h2 e =>
    cases h' with
    | @negative _ _ k' h1' h2' e' =>
      have ek : k' = _ := Int.ofNat.inj (Int.neg_inj.1 (e'.symm.trans e))
      rw [ek] at h1'
      exact ⟨by rw [number_only h1 h2 h1' h2'], rfl⟩
  | float => exact hf.elim
  | plain hp =>
    cases h' with
    | plain => exact ⟨rfl, rfl⟩
    | quoted hn => exact absurd hp hn
  | quoted hn h =>
    cases h' with
    | plain hp => exact absurd hp hn
    | quoted _ h' => exact quotedShown_only h h'

theorem below_only {m : Nat} {cs ls ls' : List Str} (h : BelowLines m cs ls) (h' : BelowLines m cs ls') : ls = ls' := by
  induction h generalizing ls' with
  | nil => cases h'; rfl
  | empty _ ih =>
    cases h' with
    | empty h' => rw [ih h']
    | line hc => exact absurd rfl hc
  | line hc ha _ ih =>
    cases h' with
    | empty h' => exact absurd rfl hc
    | line _ ha' h' => rw [ih h', at_unique ha ha']

theorem at_same {m : Nat} {a b l : Str} (h : At m a l) (h' : At m b l) : a = b :=
  List.append_cancel_left ((at_iff.1 h).symm.trans (at_iff.1 h'))

theorem brief_long {k : Yaml} (hf : NoFloats k) {t : Str} (h : ScalarShown k t []) (hb : BriefKey k t) : ¬ LongKey k := by
  cases k with
  | str s => exact fun h => h hb
  | seq l => cases h
  | map l => cases h
  | tagged t v => cases h
  | _ => rintro ⟨t', h', hx⟩; rw [(scalar_only hf h h').1] at hb; exact hx hb

mutual
theorem node_only : ∀ (v : Yaml), NoFloats v → ∀ {m : Nat} {x y : List Str}, NodeLines m v x → NodeLines m v y → x = y
  | v, hf, m, x, y, h, h' => by
    cases h with
    | scalar hs ha hb =>
      cases h' with
      | scalar hs' ha' hb' =>
        obtain ⟨rfl, rfl⟩ := scalar_only hf hs hs'
        rw [at_unique ha ha', below_only hb hb']
      | noItems => cases hs
      | noEntries => cases hs
      | seq => cases hs
      | map => cases hs
    | noItems ha =>
      cases h' with
      | scalar hs => cases hs
      | noItems ha' => rw [at_unique ha ha']
      | seq hn => exact absurd rfl hn
    | noEntries ha =>
      cases h' with
      | scalar hs => cases hs
      | noEntries ha' => rw [at_unique ha ha']
      | map hn => exact absurd rfl hn
    | seq hn h =>
      cases h' with
      | scalar hs => cases hs
      | noItems => exact absurd rfl hn
      | seq _ h' => exact items_only _ hf h h'
    | map hn h =>
      cases h' with
      | scalar hs => cases hs
      | noEntries => exact absurd rfl hn
      | map _ h' => exact entries_only _ hf h h'
theorem items_only : ∀ (l : List Yaml), NoFloatsSeq l → ∀ {m : Nat} {x y : List Str}, ItemLines m l x → ItemLines m l y → x = y
  | [], _, m, x, y, h, h' => by cases h; cases h'; rfl
  | v :: l, hf, m, x, y, h, h' => by
    cases h with
    | cons h1 h2 h3 h4 =>
      cases h' with
      | cons h1' h2' h3' h4' =>
        obtain ⟨rfl, rfl⟩ := List.cons.inj (node_only v hf.1 h1 h1')
        obtain rfl := at_same h2 h2'
        rw [at_unique h3 h3', items_only l hf.2 h4 h4']
theorem entries_only : ∀ (l : List (Yaml × Yaml)), NoFloatsMap l → ∀ {m : Nat} {x y : List Str}, EntryLines m l x → EntryLines m l y → x = y
  | [], _, m, x, y, h, h' => by cases h; cases h'; rfl
  | (k, v) :: l, hf, m, x, y, h, h' => by
    cases h with
    | brief h1 h2 h3 h4 h5 =>
      cases h' with
      | brief h1' h2' h3' h4' h5' =>
        obtain ⟨rfl, _⟩ := scalar_only hf.1 h1 h1'
        obtain ⟨rfl, rfl⟩ := value_only v hf.2.1 h3 h3'
        rw [at_unique h4 h4', entries_only l hf.2.2 h5 h5']
      | long hl => exact absurd hl (brief_long hf.1 h1 h2)
    | long hl h1 h2 h3 h4 h5 h6 h7 =>
      cases h' with
      | brief h1' h2' => exact absurd hl (brief_long hf.1 h1' h2')
      | long _ h1' h2' h3' h4' h5' h6' h7' =>
        obtain ⟨rfl, rfl⟩ := List.cons.inj (node_only k hf.1 h1 h1')
        obtain rfl := at_same h2 h2'
        obtain ⟨rfl, rfl⟩ := List.cons.inj (node_only v hf.2.1 h4 h4')
        obtain rfl := at_same h5 h5'
        rw [at_unique h3 h3', at_unique h6 h6', entries_only l hf.2.2 h7 h7']
theorem value_only : ∀ (v : Yaml), NoFloats v → ∀ {m : Nat} {u u' : Str} {x y : List Str}, ValueLines m v u x → ValueLines m v u' y → u = u' ∧ x = y
  | v, hf, m, u, u', x, y, h, h' => by
    cases h with
    | scalar hs hb =>
      cases h' with
      | scalar hs' hb' =>
        obtain ⟨rfl, rfl⟩ := scalar_only hf hs hs'
        exact ⟨rfl, below_only hb hb'⟩
      | noItems => cases hs
      | noEntries => cases hs
      | seq => cases hs
      | map => cases hs
    | noItems =>
      cases h' with
      | scalar hs => cases hs
      | noItems => exact ⟨rfl, rfl⟩
      | seq hn => exact absurd rfl hn
    | noEntries =>
      cases h' with
      | scalar hs => cases hs
      | noEntries => exact ⟨rfl, rfl⟩
      | map hn => exact absurd rfl hn
    | seq hn h =>
      cases h' with
      | scalar hs => cases hs
      | noItems => exact absurd rfl hn
      | seq _ h' => exact ⟨rfl, items_only _ hf h h'⟩
    | map hn h =>
      cases h' with
      | scalar hs => cases hs
      | noEntries => exact absurd rfl hn
      | map _ h' => exact ⟨rfl, entries_only _ hf h h'⟩
end

/-! ## No space is last in a line -/

theorem trimmed_iff {l : Str} : Trimmed l ↔ l.getLast? ≠ some ' ' := by
  constructor
  · intro h e
    obtain ⟨a, rfl⟩ := List.getLast?_eq_some_iff.1 e
    exact h a rfl
  · rintro h a rfl
    exact h (by simp)

theorem trimmed_append {a b : Str} (hb : b ≠ []) (h : Trimmed b) : Trimmed (a ++ b) := by
  rw [trimmed_iff] at h ⊢
  obtain ⟨x, c, rfl⟩ : ∃ x c, b = x ++ [c] := ⟨b.dropLast, b.getLast hb, (List.dropLast_concat_getLast hb).symm⟩
  rw [← List.append_assoc, List.getLast?_concat]
  rwa [List.getLast?_concat] at h

theorem trimmed_at {m : Nat} {b l : Str} (ha : At m b l) (hb : b ≠ []) (h : Trimmed b) : Trimmed l := by
  rw [at_iff.1 ha]
  exact trimmed_append hb h

theorem at_trimmed {m : Nat} {b l : Str} (ha : At (m + 1) b l) (h : Trimmed l) : b ≠ [] ∧ Trimmed b := by
  rw [at_iff] at ha
  have hp : yamlPad (m + 1) = yamlPad m ++ c!" " := List.replicate_succ'
  constructor
  · rintro rfl
    exact h (yamlPad m) (by rw [ha, hp, List.append_nil])
  · rintro a rfl
    exact h (yamlPad (m + 1) ++ a) (by rw [ha, List.append_assoc])

theorem trimmed_last {a : Str} {c : Char} (h : c ≠ ' ') : Trimmed (a ++ [c]) := by
  rw [trimmed_iff, List.getLast?_concat]
  exact fun e => h (Option.some.inj e)

theorem trimmed_chars {s : Str} (h : ∀ c ∈ s, c ≠ ' ') : Trimmed s := by
  rintro a rfl
  exact h ' ' (by simp) rfl

theorem number_chars {x : Str} {n : Nat} (h : NumberIn 10 x n) : ∀ c ∈ x, c ≠ ' ' := by
  rintro c hc rfl
  obtain ⟨d, hd, _⟩ := (numberIn_iff.1 h).1 _ hc
  rw [← hexVal_iff] at hd
  cases hd

theorem decimalText_chars {x : Str} {n : Nat} {e : Int} (h : DecimalText x n e) : x ≠ [] ∧ ∀ c ∈ x, c ≠ ' ' := by
  obtain ⟨ds, fs, ex, i, h1, h2, -, h4, rfl⟩ := h
  obtain ⟨h0, hd⟩ := digits_iff.1 h1
  obtain ⟨_, hdf⟩ := digits_iff.1 ⟨_, h2⟩
  have digit : ∀ {s : Str}, AllDigits s → ∀ c ∈ s, c ≠ ' ' := by
    rintro s hs c hc rfl
    exact absurd (hs _ hc) (by decide)
  have hx : ∀ c ∈ ex, c ≠ ' ' := by
    rcases h4 with ⟨rfl, _⟩ | ⟨e, es, a, he, ha, h4⟩
    · nofun
    · obtain ⟨_, hes⟩ := digits_iff.1 ⟨_, ha⟩
      have he' : e ≠ ' ' := by rcases he with rfl | rfl <;> decide
      intro c hc
      rcases h4 with ⟨rfl, _⟩ | ⟨rfl, _⟩ | ⟨rfl, _⟩
      · rcases List.mem_cons.1 hc with rfl | hc
        · exact he'
        · exact digit hes c hc
      · rcases List.mem_cons.1 hc with rfl | hc
        · exact he'
        · rcases List.mem_cons.1 hc with rfl | hc
          · decide
          · exact digit hes c hc
      · rcases List.mem_cons.1 hc with rfl | hc
        · exact he'
        · rcases List.mem_cons.1 hc with rfl | hc
          · decide
          · exact digit hes c hc
  refine ⟨by simp [h0], fun c hc => ?_⟩
  rcases List.mem_append.1 hc with hc | hc
  · rcases List.mem_append.1 hc with hc | hc
    · exact digit hd c hc
    · split at hc
      · cases hc
      · rcases List.mem_cons.1 hc with rfl | hc
        · decide
        · exact digit hdf c (List.mem_append_right _ hc)
  · exact hx c hc

theorem lines_trimmed {s : Str} {ls : List Str} (h : LinesText s ls) (h1 : ∀ a b, s ≠ a ++ (c!" \n" ++ b)) : ∀ l ∈ ls, Trimmed l := by
  rintro l hl a rfl
  obtain ⟨p, q, rfl⟩ := List.append_of_mem hl
  refine h1 ((p.map (· ++ c!"\n")).flatten ++ a) ((q.map (· ++ c!"\n")).flatten) ?_
  rw [h.2]
  simp

theorem scalar_trimmed {v : Yaml} {t : Str} {ls : List Str} (h : ScalarShown v t ls) : (t ≠ [] ∧ Trimmed t) ∧ ∀ l ∈ ls, Trimmed l := by
  have none : ∀ l ∈ ([] : List Str), Trimmed l := nofun
  cases h with
  | null => exact ⟨⟨nofun, trimmed_chars (by decide)⟩, none⟩
  | true => exact ⟨⟨nofun, trimmed_chars (by decide)⟩, none⟩
  | false => exact ⟨⟨nofun, trimmed_chars (by decide)⟩, none⟩
  | natural h1 h2 =>
    refine ⟨⟨?_, trimmed_chars (number_chars h1)⟩, none⟩
    rcases h2 with rfl | ⟨c, r, rfl, _⟩ <;> nofun
  | negative h1 h2 =>
    refine ⟨⟨nofun, trimmed_chars fun c hc => ?_⟩, none⟩
    rcases List.mem_cons.1 hc with rfl | hc
    · decide
    · exact number_chars h1 c hc
  | float _ h =>
    refine ⟨?_, none⟩
    cases h with
    | nan => exact ⟨nofun, trimmed_chars (by decide)⟩
    | infinite => exact ⟨nofun, trimmed_chars (by decide)⟩
    | negative => exact ⟨nofun, trimmed_chars (by decide)⟩
    | zero => exact ⟨by simp, trimmed_append (b := c!"0.0") nofun (trimmed_chars (by decide))⟩
    | decimal _ h1 => exact ⟨by simp [(decimalText_chars h1).1], trimmed_append (decimalText_chars h1).1 (trimmed_chars (decimalText_chars h1).2)⟩
  | plain hp =>
    obtain ⟨c, r, e, _⟩ := hp.1.first
    exact ⟨⟨by rw [e]; nofun, hp.1.last⟩, none⟩
  | quoted _ h =>
    cases h with
    | single => exact ⟨⟨nofun, trimmed_last (a := '\'' :: _) (by decide)⟩, none⟩
    | double => exact ⟨⟨nofun, trimmed_last (a := '"' :: _) (by decide)⟩, none⟩
    | literal _ hb hh hl =>
      constructor
      · refine ⟨nofun, trimmed_chars fun c hc => ?_⟩
        rcases List.mem_cons.1 hc with rfl | hc
        · decide
        rcases List.mem_append.1 hc with hc | hc
        · rcases hh with ⟨_, rfl⟩ | ⟨_, rfl⟩
          · rw [List.mem_singleton.1 hc]; decide
          · cases hc
        · cases hl with
          | strip => rw [List.mem_singleton.1 hc]; decide
          | clip => cases hc
          | keep => rw [List.mem_singleton.1 hc]; decide
      · cases hl with
        | strip _ hl =>
          refine lines_trimmed hl fun a b e => ?_
          by_cases hb0 : b = []
          · subst hb0
            have e := e.trans (show a ++ (c!" \n" ++ []) = (a ++ c!" ") ++ ['\n'] by simp)
            exact hb.2.2 a (ends_same e).1
          · obtain ⟨x, c, rfl⟩ : ∃ x c, b = x ++ [c] := ⟨b.dropLast, b.getLast hb0, (List.dropLast_concat_getLast hb0).symm⟩
            have e := e.trans (show a ++ (c!" \n" ++ (x ++ [c])) = (a ++ (c!" \n" ++ x)) ++ [c] by simp)
            exact hb.2.1 a x (ends_same e).1
        | clip _ _ hl => exact lines_trimmed hl hb.2.1
        | keep _ hl => exact lines_trimmed hl hb.2.1

theorem below_trimmed {m : Nat} {cs ls : List Str} (h : BelowLines m cs ls) (hc : ∀ l ∈ cs, Trimmed l) : ∀ l ∈ ls, Trimmed l := by
  induction h with
  | nil => nofun
  | empty _ ih =>
    intro l hl
    rcases List.mem_cons.1 hl with rfl | hl
    · exact trimmed_chars nofun
    · exact ih (fun c hm => hc c (List.mem_cons_of_mem _ hm)) l hl
  | line hn ha _ ih =>
    intro l hl
    rcases List.mem_cons.1 hl with rfl | hl
    · exact trimmed_at ha hn (hc _ List.mem_cons_self)
    · exact ih (fun c hm => hc c (List.mem_cons_of_mem _ hm)) l hl

theorem trimmed_lines {l : Str} {ls rest : List Str} (h : Trimmed l) (h1 : ∀ x ∈ ls, Trimmed x) (h2 : ∀ x ∈ rest, Trimmed x) :
    ∀ x ∈ l :: (ls ++ rest), Trimmed x := by
  intro x hx
  rcases List.mem_cons.1 hx with rfl | hx
  · exact h
  · rcases List.mem_append.1 hx with hx | hx
    · exact h1 x hx
    · exact h2 x hx

mutual
theorem node_trimmed : ∀ (v : Yaml) {m : Nat} {x : List Str}, NodeLines m v x → ∀ l ∈ x, Trimmed l
  | v, m, x, h => by
    cases h with
    | scalar hs ha hb =>
      have ht := scalar_trimmed hs
      have := trimmed_lines (rest := []) (trimmed_at ha ht.1.1 ht.1.2) (below_trimmed hb ht.2) nofun
      rwa [List.append_nil] at this
    | noItems ha => exact trimmed_lines (ls := []) (rest := []) (trimmed_at ha nofun (trimmed_chars (by decide))) nofun nofun
    | noEntries ha => exact trimmed_lines (ls := []) (rest := []) (trimmed_at ha nofun (trimmed_chars (by decide))) nofun nofun
    | seq _ h => exact items_trimmed _ h
    | map _ h => exact entries_trimmed _ h
theorem items_trimmed : ∀ (l : List Yaml) {m : Nat} {x : List Str}, ItemLines m l x → ∀ l ∈ x, Trimmed l
  | [], m, x, h => by cases h; nofun
  | v :: r, m, x, h => by
    cases h with
    | cons h1 h2 h3 h4 =>
      have hv := node_trimmed v h1
      have hb := at_trimmed h2 (hv _ List.mem_cons_self)
      exact trimmed_lines (trimmed_at h3 nofun (trimmed_append hb.1 hb.2)) (fun x hx => hv x (List.mem_cons_of_mem _ hx)) (items_trimmed r h4)
theorem entries_trimmed : ∀ (l : List (Yaml × Yaml)) {m : Nat} {x : List Str}, EntryLines m l x → ∀ l ∈ x, Trimmed l
  | [], m, x, h => by cases h; nofun
  | (k, v) :: r, m, x, h => by
    cases h with
    | brief h1 h2 h3 h4 h5 =>
      obtain ⟨hu, hl⟩ := value_trimmed v h3
      refine trimmed_lines (trimmed_at h4 (by simp) ?_) hl (entries_trimmed r h5)
      refine trimmed_append nofun ?_
      rcases hu with rfl | ⟨hn, hu⟩
      · exact trimmed_chars (by decide)
      · exact trimmed_append hn hu
    | long hl h1 h2 h3 h4 h5 h6 h7 =>
      have hk := node_trimmed k h1
      have hv := node_trimmed v h4
      have hb := at_trimmed h2 (hk _ List.mem_cons_self)
      have hb' := at_trimmed h5 (hv _ List.mem_cons_self)
      exact trimmed_lines (trimmed_at h3 nofun (trimmed_append hb.1 hb.2)) (fun x hx => hk x (List.mem_cons_of_mem _ hx))
        (trimmed_lines (trimmed_at h6 nofun (trimmed_append hb'.1 hb'.2)) (fun x hx => hv x (List.mem_cons_of_mem _ hx)) (entries_trimmed r h7))
theorem value_trimmed : ∀ (v : Yaml) {m : Nat} {u : Str} {x : List Str}, ValueLines m v u x → (u = [] ∨ u ≠ [] ∧ Trimmed u) ∧ ∀ l ∈ x, Trimmed l
  | v, m, u, x, h => by
    cases h with
    | scalar hs hb =>
      have ht := scalar_trimmed hs
      exact ⟨.inr ⟨nofun, trimmed_append ht.1.1 ht.1.2⟩, below_trimmed hb ht.2⟩
    | noItems => exact ⟨.inr ⟨nofun, trimmed_append (a := c!" ") (b := c!"[]") nofun (trimmed_chars (by decide))⟩, nofun⟩
    | noEntries => exact ⟨.inr ⟨nofun, trimmed_append (a := c!" ") (b := c!"{}") nofun (trimmed_chars (by decide))⟩, nofun⟩
    | seq _ h => exact ⟨.inl rfl, items_trimmed _ h⟩
    | map _ h => exact ⟨.inl rfl, entries_trimmed _ h⟩
end

end Rops
