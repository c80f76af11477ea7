import Verif.Spec.TomlWritten
import Verif.Lemmas.JsonShown
import Verif.Lemmas.TomlNumbers
import Verif.Lemmas.TomlOrder
/-!
# The one text of a TOML document
-/

namespace Rops

open Spec

/-! ## Texts -/

theorem tomlHex_upper : ∀ v : Fin 16, HexDigit (tomlHex v) v ∧ ¬ ('a' ≤ tomlHex v ∧ tomlHex v ≤ 'f') := by
  unfold HexDigit
  decide

theorem hexDigit_upper {c : Char} {v : Nat} (h : HexDigit c v) (hc : ¬ ('a' ≤ c ∧ c ≤ 'f')) : c = tomlHex v := by
  have hv := hexDigit_lt h
  have key : ∀ v : Fin 16, (v.val < 10 → Char.ofNat (48 + v) = tomlHex v) ∧
      (10 ≤ v.val → ('a' ≤ Char.ofNat (87 + v) ∧ Char.ofNat (87 + v) ≤ 'f') ∧ Char.ofNat (55 + v) = tomlHex v) := by decide
  obtain ⟨k1, k2⟩ := key ⟨v, hv⟩
  rcases h with ⟨h, rfl⟩ | ⟨h, _, rfl | rfl⟩
  · exact k1 h
  · exact (k2 h).2
  · exact (hc (k2 h).1).elim

theorem tomlChar_shown (lines : Bool) (c : Char) : TomlCharShown lines c (tomlEscape lines c) := by
  have hl : ∀ {c : Char} {n : Nat} {e : Char}, c.toNat = n → (e, n) ∈ shownLetters → n ≠ 10 → TomlCharShown lines c ['\\', e] := by
    rintro c n e rfl h hn
    exact .letter h (by rintro ⟨_, rfl⟩; exact hn rfl)
  unfold tomlEscape
  split; · rename_i h; exact hl (n := c.toNat) rfl (by rw [h]; decide) (by rw [h]; decide)
  split; · rename_i h; exact hl (n := c.toNat) rfl (by rw [h]; decide) (by rw [h]; decide)
  split; · rename_i h; exact hl h (by decide) (by decide)
  split; · rename_i h; exact hl h (by decide) (by decide)
  split
  · rename_i h
    have hc : c = '\n' := by rw [← Char.ofNat_toNat c, h]
    subst hc
    cases lines with
    | true => exact .newline rfl
    | false => exact .letter (by decide) (by simp)
  split; · rename_i h; exact hl h (by decide) (by decide)
  split; · rename_i h; exact hl h (by decide) (by decide)
  rename_i h1 h2 h3 h4 h5 h6 h7
  split
  · rename_i h8
    have g1 := tomlHex_upper ⟨c.toNat / 16, by omega⟩
    have g2 := tomlHex_upper ⟨c.toNat % 16, by omega⟩
    have g0 := tomlHex_upper 0
    refine .number h8 ?_ ⟨_, _, _, _, 0, 0, _, _, rfl, g0.1, g0.1, g1.1, g2.1, by simp only; omega⟩ ?_
    · intro e he
      simp only [shownLetters, List.mem_cons, Prod.mk.injEq, List.not_mem_nil, or_false] at he
      omega
    · intro d hd
      simp only [List.mem_cons, List.not_mem_nil, or_false] at hd
      rcases hd with rfl | rfl | rfl | rfl
      · exact g0.2
      · exact g0.2
      · exact g1.2
      · exact g2.2
  · exact .self (by omega) (by omega) h1 h2

theorem tomlChar_only {lines : Bool} {c : Char} {x : Str} (h : TomlCharShown lines c x) : x = tomlEscape lines c := by
  cases h with
  | self h1 h4 h2 h3 =>
    unfold tomlEscape
    rw [if_neg h2, if_neg h3, if_neg (by omega), if_neg (by omega), if_neg (by omega), if_neg (by omega), if_neg (by omega), if_neg (by omega)]
  | newline h => rw [h]; rfl
  | letter h hn =>
    have hc : ∀ {n : Nat}, c.toNat = n → c = Char.ofNat n := fun h => by rw [← h, Char.ofNat_toNat]
    simp only [shownLetters, List.mem_cons, Prod.mk.injEq, List.not_mem_nil, or_false] at h
    rcases h with ⟨rfl, h⟩ | ⟨rfl, h⟩ | ⟨rfl, h⟩ | ⟨rfl, h⟩ | ⟨rfl, h⟩ | ⟨rfl, h⟩ | ⟨rfl, h⟩
    · rw [hc h]; rfl
    · rw [hc h]; rfl
    · rw [hc h]; rfl
    · rw [hc h]; rfl
    · have e := hc h
      have e : c = '\n' := e
      subst e
      cases lines with
      | true => exact (hn ⟨rfl, rfl⟩).elim
      | false => rfl
    · rw [hc h]; rfl
    · rw [hc h]; rfl
  | number h1 h2 h3 h4 =>
    obtain ⟨a, b, d, e, v1, v2, v3, v4, rfl, g1, g2, g3, g4, hv⟩ := h3
    have l1 := hexDigit_lt g1
    have l2 := hexDigit_lt g2
    have l3 := hexDigit_lt g3
    have l4 := hexDigit_lt g4
    have e1 : v1 = 0 := by omega
    have e2 : v2 = 0 := by omega
    have e3 : v3 = c.toNat / 16 := by omega
    have e4 : v4 = c.toNat % 16 := by omega
    rw [hexDigit_upper g1 (h4 _ (by simp)), hexDigit_upper g2 (h4 _ (by simp)), hexDigit_upper g3 (h4 _ (by simp)), hexDigit_upper g4 (h4 _ (by simp)),
      e1, e2, e3, e4]
    have hne : ∀ (e : Char) (n : Nat), (e, n) ∈ shownLetters → c.toNat ≠ n := fun e n h hn => h2 e (hn ▸ h)
    unfold tomlEscape
    rw [if_neg (by rintro rfl; exact absurd h1 (by decide)), if_neg (by rintro rfl; exact absurd h1 (by decide)), if_neg (hne 'b' 8 (by decide)),
      if_neg (hne 't' 9 (by decide)), if_neg (hne 'n' 10 (by decide)), if_neg (hne 'f' 12 (by decide)), if_neg (hne 'r' 13 (by decide)), if_pos h1]
    rfl

theorem tomlChars_iff {lines : Bool} {s x : Str} : TomlCharsShown lines s x ↔ x = s.flatMap (tomlEscape lines) := by
  constructor
  · intro h
    induction h with
    | nil => rfl
    | cons h _ ih => rw [List.flatMap_cons, tomlChar_only h, ih]
  · rintro rfl
    induction s with
    | nil => exact .nil
    | cons c r ih => exact .cons (tomlChar_shown lines c) ih

theorem tomlTriple_iff : ∀ s : Str, tomlTriple s = true ↔ ∃ a b, s = a ++ (c!"'''" ++ b)
  | [] => by
    simp only [tomlTriple, Bool.false_eq_true, false_iff, not_exists]
    intro a b h
    have := congrArg List.length h
    simp at this
  | c :: r => by
    have ih := tomlTriple_iff r
    by_cases h : ∃ t, c :: r = '\'' :: '\'' :: '\'' :: t
    · obtain ⟨t, h⟩ := h
      rw [h]
      exact ⟨fun _ => ⟨[], t, rfl⟩, fun _ => by rw [tomlTriple]⟩
    · have e : tomlTriple (c :: r) = tomlTriple r := by
        rw [tomlTriple]
        intro t hc hr
        subst hc hr
        exact h ⟨t, rfl⟩
      rw [e, ih]
      constructor
      · rintro ⟨a, b, rfl⟩
        exact ⟨c :: a, b, rfl⟩
      · rintro ⟨a, b, hab⟩
        cases a with
        | nil => exact (h ⟨b, hab⟩).elim
        | cons d a =>
          rw [List.cons_append, List.cons.injEq] at hab
          exact ⟨a, b, hab.2⟩

theorem betterRaw_iff {s : Str} : BetterRaw s ↔ tomlLiteral s = true := by
  unfold BetterRaw tomlLiteral
  rw [Bool.and_eq_true, Bool.and_eq_true, Bool.or_eq_true, Bool.not_eq_true', Bool.not_eq_true', List.contains_iff_mem, List.contains_iff_mem, and_assoc]
  refine and_congr .rfl (and_congr ?_ ?_)
  · rw [List.any_eq_false]
    refine forall_congr' fun c => forall_congr' fun _ => ?_
    have h9 : c = '\t' ↔ c.toNat = 9 := ⟨fun h => by rw [h]; rfl, fun h => by rw [← Char.ofNat_toNat c, h]⟩
    have h10 : c = '\n' ↔ c.toNat = 10 := ⟨fun h => by rw [h]; rfl, fun h => by rw [← Char.ofNat_toNat c, h]⟩
    rw [h9, h10]
    simp only [tomlControl, Bool.or_eq_true, Bool.and_eq_true, decide_eq_true_eq, bne_iff_ne, beq_iff_eq]
    omega
  · rw [← Bool.not_eq_true, tomlTriple_iff]
    simp only [not_exists, ne_eq]

theorem tomlString_iff {s x : Str} : TomlStringShown s x ↔ x = tomlString s := by
  have hc : s.contains '\n' = true ↔ '\n' ∈ s := List.contains_iff_mem
  have hq : s.contains '\'' = true ↔ '\'' ∈ s := List.contains_iff_mem
  unfold tomlString
  constructor
  · intro h
    cases h with
    | basic h1 h2 h3 =>
      rw [if_neg ((not_congr hc).2 h1), if_neg ((not_congr betterRaw_iff).1 h2), tomlChars_iff.1 h3]
      rfl
    | raw h1 h2 h3 => rw [if_neg ((not_congr hc).2 h1), if_pos (betterRaw_iff.1 h2), if_neg ((not_congr hq).2 h3)]; rfl
    | quotes h1 h2 h3 => rw [if_neg ((not_congr hc).2 h1), if_pos (betterRaw_iff.1 h2), if_pos (hq.2 h3)]
    | lines h1 h2 h3 => rw [if_pos (hc.2 h1), if_neg ((not_congr betterRaw_iff).1 h2), tomlChars_iff.1 h3]
    | rawLines h1 h2 => rw [if_pos (hc.2 h1), if_pos (betterRaw_iff.1 h2)]
  · rintro rfl
    by_cases h1 : '\n' ∈ s
    · rw [if_pos (hc.2 h1)]
      by_cases h2 : BetterRaw s
      · rw [if_pos (betterRaw_iff.1 h2)]; exact .rawLines h1 h2
      · rw [if_neg ((not_congr betterRaw_iff).1 h2)]; exact .lines h1 h2 (tomlChars_iff.2 rfl)
    · rw [if_neg ((not_congr hc).2 h1)]
      by_cases h2 : BetterRaw s
      · rw [if_pos (betterRaw_iff.1 h2)]
        by_cases h3 : '\'' ∈ s
        · rw [if_pos (hq.2 h3)]; exact .quotes h1 h2 h3
        · rw [if_neg ((not_congr hq).2 h3)]; exact .raw h1 h2 h3
      · rw [if_neg ((not_congr betterRaw_iff).1 h2)]; exact .basic h1 h2 (tomlChars_iff.2 rfl)

theorem tomlKey_iff {k x : Str} : TomlKeyShown k x ↔ x = tomlKey k := by
  have hb : (!k.isEmpty && k.all tomlBare) = true ↔ k ≠ [] ∧ ∀ c ∈ k, TomlBareChar c := by
    rw [Bool.and_eq_true, List.all_eq_true]
    refine and_congr ?_ (forall_congr' fun c => forall_congr' fun _ => tomlBare_iff)
    cases k <;> simp
  unfold tomlKey
  constructor
  · intro h
    cases h with
    | bare h1 h2 => rw [if_pos (hb.2 ⟨h1, h2⟩)]
    | quoted h1 h2 => rw [if_neg ((not_congr hb).2 h1), tomlChars_iff.1 h2]; rfl
  · rintro rfl
    by_cases h : k ≠ [] ∧ ∀ c ∈ k, TomlBareChar c
    · rw [if_pos (hb.2 h)]; exact .bare h.1 h.2
    · rw [if_neg ((not_congr hb).2 h)]; exact .quoted h (tomlChars_iff.2 rfl)

/-! ## Values -/

theorem tomlFloat_iff {s x : Str} : TomlFloatShown s x ↔ x = tomlFloat s := by
  have hc : s.contains '.' = true ↔ '.' ∈ s := List.contains_iff_mem
  unfold tomlFloat
  by_cases h1 : s = c!"NaN"
  · rw [if_pos h1]
    constructor
    · intro h
      cases h with
      | nan => rfl
      | self h => exact (h h1).elim
      | point h => exact (h h1).elim
    · rintro rfl; exact .nan h1
  · rw [if_neg h1]
    by_cases h2 : s = c!"inf" ∨ s = c!"-inf"
    · rw [if_pos h2]
      constructor
      · intro h
        cases h with
        | nan h => exact (h1 h).elim
        | self => rfl
        | point _ h => exact (h (h2.elim .inl (fun e => .inr (.inl e)))).elim
      · intro e
        subst e
        exact .self h1 (h2.elim .inl (fun e => .inr (.inl e)))
    · rw [if_neg h2]
      by_cases h3 : '.' ∈ s
      · rw [if_pos (hc.2 h3)]
        constructor
        · intro h
          cases h with
          | nan h => exact (h1 h).elim
          | self => rfl
          | point _ h => exact (h (.inr (.inr h3))).elim
        · intro e
          subst e
          exact .self h1 (.inr (.inr h3))
      · rw [if_neg ((not_congr hc).2 h3)]
        have h4 : ¬ (s = c!"inf" ∨ s = c!"-inf" ∨ '.' ∈ s) := by
          rintro (e | e | e)
          · exact h2 (.inl e)
          · exact h2 (.inr e)
          · exact h3 e
        constructor
        · intro h
          cases h with
          | nan h => exact (h1 h).elim
          | self _ h => exact (h4 h).elim
          | point => rfl
        · rintro rfl
          exact .point h1 h4

theorem tomlInt_iff {n : Int64} {x : Str} : TomlIntShown n x ↔ x = showInt n := by
  unfold showInt
  by_cases hn : n.toInt < 0
  · simp only [hn, if_true]
    constructor
    · intro h
      cases h with
      | natural _ h => omega
      | negative h _ e =>
        rw [jsonInt_only h, e]
        simp
    · rintro rfl
      exact .negative (toDigits_int _) (by omega) (by omega)
  · simp only [hn, if_false]
    constructor
    · intro h
      cases h with
      | natural h e =>
        rw [jsonInt_only h, e]
        simp
      | negative h _ e => omega
    · rintro rfl
      exact .natural (toDigits_int _) (by omega)

theorem inlineSeq_eq (l : List Toml) : Toml.inlineSeq l = (l.map Toml.inline).flatMap fun y => c!"\n    " ++ (y ++ c!",") := by
  induction l with
  | nil => simp [Toml.inlineSeq]
  | cons t r ih => simp [Toml.inlineSeq, ih]

/-- An entry of an inline table. -/
def tomlField (e : Str × Toml) : Str := c!" " ++ (tomlKey e.1 ++ (c!" = " ++ e.2.inline))

theorem inlineMap_eq (m : List (Str × Toml)) :
    Toml.inlineMap false m = (m.map tomlField).flatMap (fun y => ',' :: y) ∧ Toml.inlineMap true m = commas (m.map tomlField) := by
  have h1 : ∀ m, Toml.inlineMap false m = (m.map tomlField).flatMap (fun y => ',' :: y) := by
    intro m
    induction m with
    | nil => simp [Toml.inlineMap]
    | cons e r ih => obtain ⟨k, t⟩ := e; simp [Toml.inlineMap, ih, tomlField]
  refine ⟨h1 m, ?_⟩
  cases m with
  | nil => simp [Toml.inlineMap, commas]
  | cons e r => obtain ⟨k, t⟩ := e; rw [List.map_cons, commas_cons]; simp [Toml.inlineMap, h1, tomlField]

theorem inline_array (l : List Toml) (x : Str) : (((l.map Toml.inline) = [] ∧ x = c!"[]") ∨ (∃ y, l.map Toml.inline = [y] ∧ x = c!"[" ++ (y ++ c!"]")) ∨
    (2 ≤ (l.map Toml.inline).length ∧ x = c!"[" ++ ((l.map Toml.inline).flatMap (fun y => c!"\n    " ++ (y ++ c!",")) ++ c!"\n]"))) ↔
    x = (Toml.array l).inline := by
  match l with
  | [] => simp [Toml.inline]
  | [t] => simp [Toml.inline]
  | t :: u :: r =>
    rw [← inlineSeq_eq, Toml.inline]
    simp

theorem tomlValue_iff :
    (∀ t : Toml, ∀ x, TomlValueShown t x ↔ x = t.inline) ∧ (∀ l : List Toml, ∀ xs, TomlItemsShown l xs ↔ xs = l.map Toml.inline) ∧
    (∀ m : List (Str × Toml), ∀ xs, TomlFieldsShown m xs ↔ xs = m.map tomlField) := by
  apply Toml.induct
  · intro s x; rw [TomlValueShown, Toml.inline]; exact tomlString_iff
  · intro s x; rw [TomlValueShown, Toml.inline]; exact tomlInt_iff
  · intro s x; rw [TomlValueShown, Toml.inline]; exact tomlFloat_iff
  · intro b x; cases b <;> simp [TomlValueShown, Toml.inline]
  · intro s x; rw [TomlValueShown, Toml.inline]
  · intro l ih x
    rw [TomlValueShown, ← inline_array]
    constructor
    · rintro ⟨xs, h1, h2⟩
      rw [(ih xs).1 h1] at h2
      exact h2
    · intro h
      exact ⟨_, (ih _).2 rfl, h⟩
  · intro m ih x
    rw [TomlValueShown]
    have h : ((m.map tomlField = [] ∧ x = c!"{}") ∨ (m.map tomlField ≠ [] ∧ x = c!"{" ++ (commas (m.map tomlField) ++ c!" }"))) ↔ x = (Toml.table m).inline := by
      cases m with
      | nil => simp [Toml.inline]
      | cons e r => rw [← (inlineMap_eq _).2, Toml.inline]; simp
    rw [← h]
    constructor
    · rintro ⟨xs, h1, h2⟩
      rw [(ih xs).1 h1] at h2
      exact h2
    · intro h
      exact ⟨_, (ih _).2 rfl, h⟩
  · intro xs; rw [TomlItemsShown]; rfl
  · intro t r iht ihr xs
    rw [TomlItemsShown, List.map_cons]
    constructor
    · rintro ⟨x, ys, h1, h2, rfl⟩
      rw [(iht _).1 h1, (ihr _).1 h2]
    · rintro rfl
      exact ⟨_, _, (iht _).2 rfl, (ihr _).2 rfl, rfl⟩
  · intro xs; rw [TomlFieldsShown]; rfl
  · intro k t r iht ihr xs
    rw [TomlFieldsShown, List.map_cons]
    constructor
    · rintro ⟨y, x, ys, h0, h1, h2, rfl⟩
      rw [(iht _).1 h1, (ihr _).1 h2, tomlKey_iff.1 h0]
      rfl
    · rintro rfl
      exact ⟨_, _, _, tomlKey_iff.2 rfl, (iht _).2 rfl, (ihr _).2 rfl, rfl⟩

/-! ## Documents -/

/-- What is written for a statement that is not the first. -/
def stmtText : TomlStmt → Str
  | .entry p k v => tomlPath (p ++ [k]) ++ (c!" = " ++ (v.inline ++ c!"\n"))
  | .table p => '\n' :: (c!"[" ++ (tomlPath p ++ c!"]\n"))
  | .element p => '\n' :: (c!"[[" ++ (tomlPath p ++ c!"]]\n"))

theorem tomlLines_false (l : List TomlStmt) : tomlLines false l = l.flatMap stmtText := by
  induction l with
  | nil => rfl
  | cons s r ih => cases s <;> simp [tomlLines, stmtText, ih]

/-- A statement within the table of this path. -/
def TomlStmt.below (p : List Str) : TomlStmt → TomlStmt
  | .entry q k v => .entry q k v
  | .table q => .table (p ++ q)
  | .element q => .element (p ++ q)

theorem below_under (p : List Str) (k : Str) (l : List TomlStmt) : (l.map (TomlStmt.under k)).map (TomlStmt.below p) = l.map (TomlStmt.below (p ++ [k])) := by
  rw [List.map_map]
  refine List.map_congr_left fun s _ => ?_
  cases s <;> simp [TomlStmt.under, TomlStmt.below]

theorem below_nil (l : List TomlStmt) : l.map (TomlStmt.below []) = l := by
  conv => rhs; rw [← List.map_id l]
  refine List.map_congr_left fun s _ => ?_
  cases s <;> rfl

theorem below_entries (p : List Str) (m : List (Str × Toml)) : (Toml.entryStmts m).map (TomlStmt.below p) = Toml.entryStmts m := by
  induction m with
  | nil => rfl
  | cons e r ih =>
    obtain ⟨k, t⟩ := e
    rw [Toml.entryStmts]
    split
    · exact ih
    · rw [List.map_cons, ih]; rfl

theorem inSections_iff {t : Toml} : InSections t ↔ t.section = true := by
  unfold InSections
  cases t with
  | table m => simp [Toml.section]
  | array l =>
    have h : ∀ u : Toml, u.isTable = true ↔ ∃ m, u = .table m := by intro u; cases u <;> simp [Toml.isTable]
    simp [Toml.section, ← h]
  | _ => simp [Toml.section]

theorem tomlPath_iff {p : List Str} (hp : p ≠ []) {x : Str} : TomlPathShown p x ↔ x = tomlPath p := by
  constructor
  · intro h
    clear hp
    induction h with
    | one h => rw [tomlPath]; exact tomlKey_iff.1 h
    | @cons k x y p h h' ih =>
      cases p with
      | nil => cases h'
      | cons k' r => rw [tomlPath, tomlKey_iff.1 h, ih]; rfl
  · rintro rfl
    induction p with
    | nil => exact (hp rfl).elim
    | cons k r ih =>
      cases r with
      | nil => exact .one (by rw [tomlPath]; exact tomlKey_iff.2 rfl)
      | cons k' r => exact .cons (tomlKey_iff.2 rfl) (ih nofun)

theorem tomlEntries_iff {m : List (Str × Toml)} {e : Str} : TomlEntriesShown m e ↔ e = (Toml.entryStmts m).flatMap stmtText := by
  induction m generalizing e with
  | nil =>
    constructor
    · intro h; cases h; rfl
    · rintro rfl; exact .nil
  | cons f r ih =>
    obtain ⟨k, t⟩ := f
    rw [Toml.entryStmts]
    by_cases hs : t.section = true
    · rw [if_pos hs, ← ih]
      constructor
      · intro h
        cases h with
        | skip _ h => exact h
        | cons h => exact (h (inSections_iff.2 hs)).elim
      · exact .skip (inSections_iff.2 hs)
    · rw [if_neg hs]
      constructor
      · intro h
        cases h with
        | skip h => exact (hs (inSections_iff.1 h)).elim
        | cons _ h1 h2 h3 =>
          rw [tomlKey_iff.1 h1, (tomlValue_iff.1 t _).1 h2, ih.1 h3, List.flatMap_cons]
          simp [stmtText, tomlPath]
      · rintro rfl
        have := TomlEntriesShown.cons (fun h => hs (inSections_iff.1 h)) (tomlKey_iff (k := k).2 rfl) ((tomlValue_iff.1 t _).2 rfl) (ih (e := _).2 rfl)
        rw [List.flatMap_cons]
        simpa [stmtText, tomlPath] using this

theorem entryStmts_isEntry (m : List (Str × Toml)) : ∀ s ∈ Toml.entryStmts m, ∃ p k v, s = .entry p k v := by
  induction m with
  | nil => intro s h; cases h
  | cons f r ih =>
    obtain ⟨k, t⟩ := f
    rw [Toml.entryStmts]
    split
    · exact ih
    · intro s h
      rcases List.mem_cons.1 h with rfl | h
      · exact ⟨_, _, _, rfl⟩
      · exact ih s h

theorem tomlEntries_none {m : List (Str × Toml)} : Toml.entryStmts m = [] ↔ ∀ f ∈ m, InSections f.2 := by
  induction m with
  | nil => simp [Toml.entryStmts]
  | cons f r ih =>
    obtain ⟨k, t⟩ := f
    rw [Toml.entryStmts, List.forall_mem_cons, ← ih, inSections_iff]
    by_cases hs : t.section = true
    · simp [hs]
    · simp [hs]

/-- Texts, each after an empty line. -/
abbrev afterBlank (xs : List Str) : Str := xs.flatMap fun x => '\n' :: x

theorem sections_shown :
    (∀ t : Toml, (∀ p k, (∃ xs, TomlSectionShown (p ++ [k]) t xs) ∧ ∀ xs, TomlSectionShown (p ++ [k]) t xs →
        ((Toml.sectionStmts [(k, t)]).map (TomlStmt.below p)).flatMap stmtText = afterBlank xs) ∧
      ∀ m, t = .table m → ∀ p, (∃ xs, TomlSectionsShown p m xs) ∧ ∀ xs, TomlSectionsShown p m xs →
        ((Toml.sectionStmts m).map (TomlStmt.below p)).flatMap stmtText = afterBlank xs) ∧
    (∀ l : List Toml, (∀ u ∈ l, ∃ m, u = .table m) → ∀ p k, (∃ xs, TomlElementsShown (p ++ [k]) l xs) ∧ ∀ xs, TomlElementsShown (p ++ [k]) l xs →
        ((Toml.elementStmts k l).map (TomlStmt.below p)).flatMap stmtText = afterBlank xs) ∧
    (∀ m : List (Str × Toml), ∀ p, (∃ xs, TomlSectionsShown p m xs) ∧ ∀ xs, TomlSectionsShown p m xs →
        ((Toml.sectionStmts m).map (TomlStmt.below p)).flatMap stmtText = afterBlank xs) := by
  have plain : ∀ t : Toml, (∀ p xs, TomlSectionShown p t xs ↔ xs = []) → (∀ k, Toml.sectionStmts [(k, t)] = []) → (∀ m, t ≠ .table m) →
      (∀ p k, (∃ xs, TomlSectionShown (p ++ [k]) t xs) ∧ ∀ xs, TomlSectionShown (p ++ [k]) t xs →
        ((Toml.sectionStmts [(k, t)]).map (TomlStmt.below p)).flatMap stmtText = afterBlank xs) ∧
      ∀ m, t = .table m → ∀ p, (∃ xs, TomlSectionsShown p m xs) ∧ ∀ xs, TomlSectionsShown p m xs →
        ((Toml.sectionStmts m).map (TomlStmt.below p)).flatMap stmtText = afterBlank xs := by
    intro t h1 h2 h3
    refine ⟨fun p k => ⟨⟨[], (h1 _ _).2 rfl⟩, fun xs h => ?_⟩, fun m e => (h3 m e).elim⟩
    rw [(h1 _ _).1 h, h2]
    rfl
  have hne : ∀ (p : List Str) (k : Str), p ++ [k] ≠ [] := by intro p k; simp
  apply Toml.induct
  · intro s; exact plain _ (fun p xs => by rw [TomlSectionShown] <;> nofun) (fun k => by simp [Toml.sectionStmts]) nofun
  · intro s; exact plain _ (fun p xs => by rw [TomlSectionShown] <;> nofun) (fun k => by simp [Toml.sectionStmts]) nofun
  · intro s; exact plain _ (fun p xs => by rw [TomlSectionShown] <;> nofun) (fun k => by simp [Toml.sectionStmts]) nofun
  · intro s; exact plain _ (fun p xs => by rw [TomlSectionShown] <;> nofun) (fun k => by simp [Toml.sectionStmts]) nofun
  · intro s; exact plain _ (fun p xs => by rw [TomlSectionShown] <;> nofun) (fun k => by simp [Toml.sectionStmts]) nofun
  · intro l ih
    refine ⟨fun p k => ?_, nofun⟩
    by_cases hs : InSections (.array l)
    · have hl : ∀ u ∈ l, ∃ m, u = .table m := by
        rcases hs with ⟨m, e⟩ | ⟨l', e, _, h⟩
        · cases e
        · cases e; exact h
      have hall : l.all Toml.isTable = true := by
        rw [List.all_eq_true]
        intro u hu
        obtain ⟨m, rfl⟩ := hl u hu
        rfl
      obtain ⟨⟨xs, h1⟩, h2⟩ := ih hl p k
      refine ⟨⟨xs, by rw [TomlSectionShown]; exact .inl ⟨hs, h1⟩⟩, fun ys h => ?_⟩
      rw [TomlSectionShown] at h
      rcases h with ⟨_, h⟩ | ⟨h, _⟩
      · rw [← h2 ys h]
        simp [Toml.sectionStmts, hall]
      · exact (h hs).elim
    · refine ⟨⟨[], by rw [TomlSectionShown]; exact .inr ⟨hs, rfl⟩⟩, fun ys h => ?_⟩
      rw [TomlSectionShown] at h
      rcases h with ⟨h, _⟩ | ⟨_, rfl⟩
      · exact (hs h).elim
      · rw [sectionStmts_none (by simpa using fun h => hs (inSections_iff.2 h))]
        simp [Toml.sectionStmts]
  · intro m ih
    refine ⟨fun p k => ?_, fun m' e => by cases e; exact ih⟩
    obtain ⟨⟨ys, h1⟩, h2⟩ := ih (p ++ [k])
    have hcond : (m.isEmpty || !(Toml.entryStmts m).isEmpty) = true ↔ ¬ (m ≠ [] ∧ ∀ f ∈ m, InSections f.2) := by
      rw [← tomlEntries_none, Bool.or_eq_true, Bool.not_eq_true', List.isEmpty_iff, ← Bool.not_eq_true, List.isEmpty_iff]
      by_cases e : m = [] <;> simp [e]
    constructor
    · by_cases hc : m ≠ [] ∧ ∀ f ∈ m, InSections f.2
      · exact ⟨ys, by rw [TomlSectionShown]; exact ⟨_, _, tomlEntries_iff.2 rfl, h1, .inl ⟨hc, rfl⟩⟩⟩
      · exact ⟨_, by rw [TomlSectionShown]; exact ⟨_, _, tomlEntries_iff.2 rfl, h1, .inr ⟨hc, _, (tomlPath_iff (hne p k)).2 rfl, rfl⟩⟩⟩
    · intro xs h
      rw [TomlSectionShown] at h
      obtain ⟨e, zs, he, hz, h⟩ := h
      have hz := h2 zs hz
      rw [Toml.sectionStmts, Toml.sectionStmts, List.append_nil, List.map_append, below_under, List.map_append, below_entries, List.flatMap_append,
        List.flatMap_append, hz, ← tomlEntries_iff.1 he]
      rcases h with ⟨hc, rfl⟩ | ⟨hc, y, hy, rfl⟩
      · rw [if_neg (fun h => hcond.1 h hc)]
        have : e = [] := by rw [tomlEntries_iff.1 he, tomlEntries_none.2 hc.2]; rfl
        rw [this]
        rfl
      · rw [if_pos (hcond.2 hc), (tomlPath_iff (hne p k)).1 hy]
        simp [TomlStmt.below, stmtText]
  · intro _ p k
    exact ⟨⟨[], by rw [TomlElementsShown]⟩, fun xs h => by rw [TomlElementsShown] at h; rw [h]; simp [Toml.elementStmts]⟩
  · intro t r iht ihr hl p k
    obtain ⟨m, rfl⟩ := hl t (by simp)
    obtain ⟨⟨zs, h3⟩, h4⟩ := ihr (fun u hu => hl u (by simp [hu])) p k
    obtain ⟨⟨ys, h1⟩, h2⟩ := iht.2 m rfl (p ++ [k])
    constructor
    · exact ⟨_, by rw [TomlElementsShown]; exact ⟨_, _, _, _, (tomlPath_iff (hne p k)).2 rfl, tomlEntries_iff.2 rfl, h1, h3, rfl⟩⟩
    · intro xs h
      rw [TomlElementsShown] at h
      obtain ⟨y, e, us, vs, g1, g2, g3, g4, rfl⟩ := h
      rw [Toml.elementStmts, List.map_append, List.flatMap_append, h4 vs g4, List.map_cons, below_under, List.map_append, below_entries, List.flatMap_cons,
        List.flatMap_append, h2 us g3, ← tomlEntries_iff.1 g2, (tomlPath_iff (hne p k)).1 g1]
      simp [TomlStmt.below, stmtText]
  · intro p
    exact ⟨⟨[], by rw [TomlSectionsShown]⟩, fun xs h => by rw [TomlSectionsShown] at h; rw [h]; simp [Toml.sectionStmts]⟩
  · intro k t r iht ihr p
    obtain ⟨⟨ys, h1⟩, h2⟩ := iht.1 p k
    obtain ⟨⟨zs, h3⟩, h4⟩ := ihr p
    refine ⟨⟨_, by rw [TomlSectionsShown]; exact ⟨_, _, h1, h3, rfl⟩⟩, fun xs h => ?_⟩
    rw [TomlSectionsShown] at h
    obtain ⟨us, vs, g1, g2, rfl⟩ := h
    have : Toml.sectionStmts ((k, t) :: r) = Toml.sectionStmts [(k, t)] ++ Toml.sectionStmts r := sectionStmts_append [(k, t)] r
    rw [this, List.map_append, List.flatMap_append, h2 us g1, h4 vs g2]
    exact List.flatMap_append.symm

theorem apart_cons (x : Str) (r : List Str) : apart (x :: r) = x ++ afterBlank r := by
  induction r generalizing x with
  | nil => simp [apart]
  | cons y r ih => rw [apart, ih y]; simp [afterBlank]

theorem tomlLines_first {s : TomlStmt} (h : ∀ p k v, s ≠ .entry p k v) (r : List TomlStmt) : '\n' :: tomlLines true (s :: r) = tomlLines false (s :: r) := by
  cases s with
  | entry p k v => exact (h _ _ _ rfl).elim
  | table p => simp [tomlLines]
  | element p => simp [tomlLines]

theorem shown_toml_iff {m : List (Str × Toml)} {s : Str} : TomlShown m s ↔ s = Toml.render m := by
  have key : ∀ {e xs}, TomlEntriesShown m e → TomlSectionsShown [] m xs → apart (if e = [] then xs else e :: xs) = Toml.render m := by
    intro e xs he hx
    have ht := (sections_shown.2.2 m []).2 xs hx
    rw [below_nil, ← tomlLines_false] at ht
    unfold Toml.render
    have he := tomlEntries_iff.1 he
    cases hl : Toml.entryStmts m with
    | nil =>
      rw [hl] at he
      rw [if_pos (show e = [] from he), List.nil_append]
      cases hs : Toml.sectionStmts m with
      | nil =>
        rw [hs] at ht
        cases xs with
        | nil => rfl
        | cons x r => simp [tomlLines] at ht
      | cons st r =>
        have hst : ∀ p k v, st ≠ .entry p k v := by
          intro p k v e
          have := (sectionStmts_shape m).1
          rw [hs, e] at this
          exact this p k v r rfl
        rw [hs, ← tomlLines_first hst] at ht
        cases xs with
        | nil => simp at ht
        | cons x r =>
          rw [apart_cons]
          rw [afterBlank, List.flatMap_cons, List.cons_append, List.cons.injEq] at ht
          exact ht.2.symm
    | cons st r =>
      obtain ⟨p, k, v, rfl⟩ : ∃ p k v, st = .entry p k v := by
        have := entryStmts_isEntry m st (by rw [hl]; simp)
        exact this
      rw [hl] at he
      rw [if_neg (by rw [he, List.flatMap_cons]; simp [stmtText]), apart_cons, he, ← ht, ← tomlLines_false, List.cons_append]
      simp only [tomlLines, tomlLines_false, List.flatMap_append, List.append_assoc, List.cons_append, List.nil_append]
  constructor
  · rintro ⟨e, xs, he, hx, rfl⟩
    exact key he hx
  · rintro rfl
    obtain ⟨xs, hx⟩ := (sections_shown.2.2 m []).1
    exact ⟨_, xs, tomlEntries_iff.2 rfl, hx, (key (tomlEntries_iff.2 rfl) hx).symm⟩

end Rops
