import Verif.Lemmas.TomlValues
import Verif.Lemmas.Tree
/-!
# The texts of TOML documents: arrays and tables within a line
-/

namespace Rops
open Spec

/-! ## Entries of a table -/

/-- The items of entries that are values. -/
def valueItems (m : List (Str × Toml)) : List (Str × TomlItem) := m.map fun e => (e.1, .value e.2)

/-- Entries of one key. -/
def plainStmts (m : List (Str × Toml)) : List TomlStmt := m.map fun e => .entry [] e.1 e.2

theorem addEntry_new {dotted i : Bool} {k : Str} {v : Toml} {I : List (Str × TomlItem)} (h : k ∉ I.map Prod.fst) :
    TomlItem.addEntry dotted k v (.table i dotted I) = some (.table i dotted (I ++ [(k, .value v)])) := by
  unfold TomlItem.addEntry
  simp only [bne_self_eq_false, IndexMap.get_eq_none.2 h, Bool.false_eq_true, if_false]

theorem applyAll_plain {i : Bool} {m : List (Str × Toml)} (hm : (m.map Prod.fst).Nodup) {I : List (Str × TomlItem)}
    (hd : ∀ k ∈ I.map Prod.fst, k ∉ m.map Prod.fst) :
    TomlStmt.applyAll [] (.table i false I) (plainStmts m) = some (.table i false (I ++ valueItems m)) := by
  induction m generalizing I with
  | nil => simp [plainStmts, valueItems, TomlStmt.applyAll]
  | cons e m ih =>
    obtain ⟨k, v⟩ := e
    rw [List.map_cons, List.nodup_cons] at hm
    have hk : k ∉ I.map Prod.fst := fun h => hd k h (by simp)
    have h1 : TomlStmt.apply [] (.table i false I) (.entry [] k v) = some (.table i false (I ++ [(k, .value v)])) := by
      show TomlItem.addEntry (!([] : List Str).isEmpty) k v (.table i false I) = _
      exact addEntry_new hk
    have := ih hm.2 (I := I ++ [(k, .value v)]) (by
      intro a ha hb
      rw [List.map_append, List.mem_append] at ha
      rcases ha with ha | ha
      · exact hd a ha (by simp only [List.map_cons, List.mem_cons]; exact .inr hb)
      · simp only [List.map_cons, List.map_nil, List.mem_singleton] at ha
        subst ha
        exact hm.1 hb)
    rw [List.append_assoc] at this
    show TomlStmt.applyAll [] _ (.entry [] k v :: plainStmts m) = _
    rw [TomlStmt.applyAll, h1]
    exact this

theorem tomlMap_values (m : List (Str × Toml)) : TomlItem.tomlMap (valueItems m) = m := by
  induction m with
  | nil => rfl
  | cons e m ih =>
    obtain ⟨k, v⟩ := e
    show TomlItem.tomlMap ((k, .value v) :: valueItems m) = _
    rw [TomlItem.tomlMap, ih, TomlItem.toml]

theorem tomlInlineTable_plain {m : List (Str × Toml)} (hm : (m.map Prod.fst).Nodup) :
    tomlInlineTable (plainStmts m) = some (.table m) := by
  unfold tomlInlineTable
  rw [applyAll_plain hm (by simp)]
  show some (TomlItem.toml _) = _
  rw [TomlItem.toml, List.nil_append, tomlMap_values]

/-! ## Steps of the reader -/

theorem tomlElems_value {S : TomlScalars} {n d : Nat} {s : Str} {c : Char} {r : Str} (hg : tomlGap (s.length + 1) s = some (c :: r))
    (hc : c ≠ ']') {t : Toml} {r' : Str} (hv : tomlValue S n d (c :: r) = some (t, r')) :
    tomlElems S (n + 1) d s = match tomlGap (r'.length + 1) r' with
      | some (',' :: r) => match tomlElems S n d r with
        | some (l, r) => some (t :: l, r)
        | none => none
      | some (']' :: r) => some ([t], r)
      | _ => none := by
  rw [tomlElems, hg]
  split
  · rename_i h; cases h
  · rename_i h; exact absurd (List.cons.inj (Option.some.inj h)).1 hc
  · rename_i h1 h2
    obtain rfl := Option.some.inj h2
    rw [hv]
    rfl

theorem tomlElems_end {S : TomlScalars} {n d : Nat} {s r : Str} (hg : tomlGap (s.length + 1) s = some (']' :: r)) :
    tomlElems S (n + 1) d s = some ([], r) := by
  rw [tomlElems, hg]
  rfl

theorem tomlGap_char {c : Char} (r : Str) (h1 : tomlSpace c = false) (h2 : c ≠ '#') (h3 : c ≠ '\n') (h4 : c ≠ '\r') :
    tomlGap ((c :: r).length + 1) (c :: r) = some (c :: r) := tomlGap_lines h1 h2 h3 h4 (by omega)

theorem afterValue_char {c : Char} (r : Str) (h1 : tomlTokenChar c = false) (h2 : c ≠ '"') (h3 : c ≠ '\'') (h4 : c ≠ ' ') :
    AfterValue (c :: r) where
  token := begins_cons.2 h1
  text := ⟨fun h => h3 (Option.some.inj h), fun h => h2 (Option.some.inj h)⟩
  day := fun _ _ h => absurd (List.cons.inj h).1 h4

theorem afterValue_close (r : Str) : AfterValue (' ' :: '}' :: r) where
  token := begins_cons.2 (by decide)
  text := ⟨fun h => absurd (Option.some.inj h) (by decide), fun h => absurd (Option.some.inj h) (by decide)⟩
  day := fun _ _ h => by cases h; decide

theorem afterKey_equals (r : Str) : AfterKey (' ' :: '=' :: r) where
  bare := begins_cons.2 (by decide)
  dot := by
    rw [List.dropWhile_cons_of_pos (by decide), List.dropWhile_cons_of_neg (by decide)]
    exact fun h => absurd (Option.some.inj h) (by decide)

/-- A key, the sign, and the value. -/
theorem tomlReadKey_single {S : TomlScalars} (h1 : 1 < S.limit) (k : Str) {w : Str} (hw : ∀ c ∈ w, tomlSpace c = true) (r : Str) :
    tomlReadKey S (w ++ (tomlKey k ++ (c!" = " ++ r))) = some ([k], '=' :: ' ' :: r) :=
  tomlReadKey_path (p := [k]) (afterKey_equals (' ' :: r)) (by simp) h1 hw

/-! ## Values -/

theorem tomlValue_string {S : TomlScalars} {n d : Nat} (s : Str) {rest : Str} (hr : AfterValue rest) :
    tomlValue S (n + 1) d (tomlString s ++ rest) = some (.str s, rest) := by
  have ht := tomlText_string s hr.text
  obtain ⟨c, r, h, hc⟩ := tomlString_head s
  rw [h, List.cons_append] at ht ⊢
  rw [tomlValue]
  · rw [if_pos hc, ht]
  · rintro rfl; exact absurd hc (by decide)
  · rintro rfl; exact absurd hc (by decide)

theorem boolKept (S : TomlScalars) (b : Bool) : TomlScalarKept S (Toml.inline (.bool b)) (.bool b) := by
  cases b with
  | true => exact ⟨by rw [Toml.inline]; simp, by rw [Toml.inline]; decide, by rw [Toml.inline]; rfl⟩
  | false => exact ⟨by rw [Toml.inline]; simp, by rw [Toml.inline]; decide, by rw [Toml.inline]; rfl⟩

theorem inlineMap_length {k : Str} {t : Toml} {m : List (Str × Toml)} (b : Bool) :
    t.inline.length + (Toml.inlineMap false m).length + 1 ≤ (Toml.inlineMap b ((k, t) :: m)).length := by
  rw [Toml.inlineMap]
  simp only [List.length_append, List.length_cons]
  omega

theorem inlineMap_false (e : Str × Toml) (m : List (Str × Toml)) :
    Toml.inlineMap false (e :: m) = ',' :: Toml.inlineMap true (e :: m) := by
  obtain ⟨k, t⟩ := e
  rw [Toml.inlineMap, Toml.inlineMap]
  rfl

theorem inlineMap_true (k : Str) (t : Toml) (m : List (Str × Toml)) :
    Toml.inlineMap true ((k, t) :: m) = ' ' :: (tomlKey k ++ (c!" = " ++ (t.inline ++ Toml.inlineMap false m))) := by
  rw [Toml.inlineMap]
  rfl

theorem inline_fuel {S : TomlScalars} {v : Toml} (h : TomlSound S v) {n : Nat} (hn : v.inline.length ≤ n) : ∃ m, n = m + 1 := by
  obtain ⟨c0, r0, h0, _⟩ := inline_head h
  cases n with
  | zero => rw [h0] at hn; simp at hn
  | succ n => exact ⟨n, rfl⟩

mutual
theorem tomlValue_inline {S : TomlScalars} : ∀ (v : Toml), TomlSound S v → ∀ {n d : Nat} {rest : Str}, tomlLevels v + d < S.limit →
    v.inline.length ≤ n → AfterValue rest → tomlValue S n d (v.inline ++ rest) = some (v, rest)
  | .str s, hv, n, d, rest, hl, hn, hr => by
    obtain ⟨n, rfl⟩ := inline_fuel hv hn
    rw [Toml.inline]; exact tomlValue_string s hr
  | .int k, hv, n, d, rest, hl, hn, hr => by
    obtain ⟨n, rfl⟩ := inline_fuel hv hn
    rw [Toml.inline]; exact tomlValue_token (intKept S k) hr
  | .float s, hv, n, d, rest, hl, hn, hr => by
    obtain ⟨n, rfl⟩ := inline_fuel hv hn
    rw [Toml.inline]; rw [TomlSound] at hv; exact tomlValue_token hv hr
  | .bool b, hv, n, d, rest, hl, hn, hr => by
    obtain ⟨n, rfl⟩ := inline_fuel hv hn
    exact tomlValue_token (boolKept S b) hr
  | .datetime s, hv, n, d, rest, hl, hn, hr => by
    obtain ⟨n, rfl⟩ := inline_fuel hv hn
    rw [Toml.inline]; rw [TomlSound] at hv; exact tomlValue_token hv hr
  | .array [], hv, n, d, rest, hl, hn, hr => by
    obtain ⟨n, rfl⟩ := inline_fuel hv hn
    rw [tomlLevels] at hl
    rw [Toml.inline] at hn ⊢
    obtain ⟨n, rfl⟩ : ∃ m, n = m + 1 := ⟨n - 1, by simp at hn; omega⟩
    show tomlValue S (n + 1 + 1) d ('[' :: ']' :: rest) = _
    rw [tomlValue, if_pos (by omega), tomlElems_end (tomlGap_char rest (by decide) (by decide) (by decide) (by decide))]
  | .array [t], hv, n, d, rest, hl, hn, hr => by
    obtain ⟨n, rfl⟩ := inline_fuel hv hn
    rw [TomlSound, TomlSoundSeq] at hv
    rw [tomlLevels, tomlLevelsSeq] at hl
    rw [Toml.inline] at hn ⊢
    simp only [List.length_cons, List.length_append, List.length_nil] at hn
    obtain ⟨n, rfl⟩ : ∃ m, n = m + 1 := ⟨n - 1, by omega⟩
    have hv' := tomlValue_inline t hv.1 (n := n) (d := d + 1) (rest := ']' :: rest) (by omega) (by omega)
      (afterValue_char rest (by decide) (by decide) (by decide) (by decide))
    rw [List.cons_append, List.append_assoc]
    show tomlValue S (n + 1 + 1) d ('[' :: (t.inline ++ ']' :: rest)) = _
    obtain ⟨c, r, hc, hh⟩ := inline_head hv.1
    obtain ⟨g1, g2, g3, g4, g5, _⟩ := valueHead_space hh
    rw [hc, List.cons_append] at hv' ⊢
    rw [tomlValue, if_pos (by omega), tomlElems_value (tomlGap_char _ g1 g2 g3 g4) g5 hv',
      tomlGap_char rest (by decide) (by decide) (by decide) (by decide)]
    rfl
  | .array (t :: u :: l), hv, n, d, rest, hl, hn, hr => by
    obtain ⟨n, rfl⟩ := inline_fuel hv hn
    rw [TomlSound] at hv
    rw [tomlLevels] at hl
    rw [Toml.inline] at hn ⊢
    simp only [List.length_cons, List.length_append, List.length_nil] at hn
    have := tomlElems_inline (t :: u :: l) hv (n := n) (d := d + 1) (rest := rest) (by omega) (by omega)
    rw [List.cons_append, List.append_assoc]
    show tomlValue S (n + 1) d ('[' :: (Toml.inlineSeq (t :: u :: l) ++ '\n' :: ']' :: rest)) = _
    rw [tomlValue, if_pos (by omega), this]
  | .table [], hv, n, d, rest, hl, hn, hr => by
    obtain ⟨n, rfl⟩ := inline_fuel hv hn
    rw [tomlLevels] at hl
    rw [Toml.inline]
    show tomlValue S (n + 1) d ('{' :: '}' :: rest) = _
    rw [tomlValue, if_pos (by omega), List.dropWhile_cons_of_neg (by decide)]
    rfl
  | .table ((k, t) :: m), hv, n, d, rest, hl, hn, hr => by
    obtain ⟨n, rfl⟩ := inline_fuel hv hn
    rw [TomlSound] at hv
    rw [tomlLevels] at hl
    rw [Toml.inline] at hn ⊢
    simp only [List.length_cons, List.length_append, List.length_nil] at hn
    have hlen := inlineMap_length (k := k) (t := t) (m := m) true
    have := tomlPairs_inline ((k, t) :: m) hv.2 k t m rfl (n := n) (d := d + 1) (rest := rest) (w := []) (by simp) (by omega) (by omega) (by omega)
    rw [List.nil_append] at this
    rw [List.cons_append, List.append_assoc, inlineMap_true]
    simp only [List.cons_append, List.append_assoc, List.nil_append] at this ⊢
    rw [tomlValue, if_pos (by omega), List.dropWhile_cons_of_pos (by decide), dropWhile_key]
    have hne : ∀ r, tomlKey k ++ (' ' :: '=' :: ' ' :: (t.inline ++ (Toml.inlineMap false m ++ ' ' :: '}' :: rest))) ≠ '}' :: r := by
      intro r h
      obtain ⟨c, r', hk, hc⟩ := tomlKey_head k
      rw [hk] at h
      rw [(List.cons.inj h).1] at hc
      exact absurd hc (by decide)
    split
    · rename_i h; exact absurd h (hne _)
    · rw [this]
      simp only
      rw [tomlInlineTable_plain hv.1]
theorem tomlElems_inline {S : TomlScalars} : ∀ (l : List Toml), TomlSoundSeq S l → ∀ {n d : Nat} {rest : Str},
    tomlLevelsSeq l + d < S.limit → (Toml.inlineSeq l).length + 2 ≤ n →
    tomlElems S n d (Toml.inlineSeq l ++ '\n' :: ']' :: rest) = some (l, rest)
  | [], _, n, d, rest, _, hn => by
      obtain ⟨n, rfl⟩ : ∃ m, n = m + 1 := ⟨n - 1, by omega⟩
      rw [Toml.inlineSeq, List.nil_append]
      exact tomlElems_end (tomlGap_indent (w := []) (by simp) (by decide) (by decide) (by decide) (by decide) (by simp))
  | t :: l, hv, n, d, rest, hl, hn => by
      obtain ⟨n, rfl⟩ : ∃ m, n = m + 1 := ⟨n - 1, by omega⟩
      rw [TomlSoundSeq] at hv
      rw [tomlLevelsSeq] at hl
      rw [Toml.inlineSeq] at hn ⊢
      simp only [List.length_cons, List.length_append, List.length_nil] at hn
      have hv' := tomlValue_inline t hv.1 (n := n) (d := d) (rest := ',' :: (Toml.inlineSeq l ++ '\n' :: ']' :: rest)) (by omega) (by omega)
        (afterValue_char _ (by decide) (by decide) (by decide) (by decide))
      have ih := tomlElems_inline l hv.2 (n := n) (d := d) (rest := rest) (by omega) (by omega)
      obtain ⟨c, r, hc, hh⟩ := inline_head hv.1
      obtain ⟨g1, g2, g3, g4, g5, _⟩ := valueHead_space hh
      simp only [List.append_assoc, List.cons_append, List.nil_append]
      rw [hc] at hv' ⊢
      simp only [List.append_assoc, List.cons_append, List.nil_append] at hv' ⊢
      refine (tomlElems_value (tomlGap_indent (w := c!"    ") (by decide) g1 g2 g3 g4 (by simp)) g5 hv').trans ?_
      rw [tomlGap_char _ (by decide) (by decide) (by decide) (by decide)]
      simp only [ih]
theorem tomlPairs_inline {S : TomlScalars} : ∀ (l : List (Str × Toml)), TomlSoundMap S l → ∀ (k : Str) (t : Toml) (m : List (Str × Toml)), l = (k, t) :: m →
    ∀ {n d : Nat} {rest w : Str}, (∀ c ∈ w, tomlSpace c = true) → 0 < d → tomlLevelsMap ((k, t) :: m) + d < S.limit →
    t.inline.length + (Toml.inlineMap false m).length + 1 ≤ n →
    tomlPairs S n d (w ++ (tomlKey k ++ (c!" = " ++ (t.inline ++ (Toml.inlineMap false m ++ ' ' :: '}' :: rest))))) =
      some (plainStmts ((k, t) :: m), rest)
  | [], _, _, _, _, h, _, _, _, _, _, _, _, _ => nomatch h
  | (k, t) :: m, hv, k1, t1, m1, h, n, d, rest, w, hw, hd0, hl, hn => by
    have h1 : k = k1 := congrArg Prod.fst (List.cons.inj h).1
    have h2 : t = t1 := congrArg Prod.snd (List.cons.inj h).1
    have h3 : m = m1 := (List.cons.inj h).2
    subst h1 h2 h3
    obtain ⟨n, rfl⟩ : ∃ m, n = m + 1 := ⟨n - 1, by omega⟩
    rw [TomlSoundMap] at hv
    rw [tomlLevelsMap] at hl
    obtain ⟨c, r, hc, hh⟩ := inline_head hv.1
    have g1 := (valueHead_space hh).1
    have hd : ∀ x : Str, (' ' :: (t.inline ++ x)).dropWhile tomlSpace = t.inline ++ x := by
      intro x
      rw [List.dropWhile_cons_of_pos (by decide), hc, List.cons_append, List.dropWhile_cons_of_neg (by rw [g1]; decide)]
    match m, hv, hl, hn with
    | [], hv, hl, hn =>
      have hv' := tomlValue_inline t hv.1 (n := n) (d := d) (rest := ' ' :: '}' :: rest) (by omega) (by omega) (afterValue_close rest)
      rw [tomlPairs, tomlReadKey_single (by omega) k hw]
      simp only [Toml.inlineMap, List.nil_append]
      rw [hd, hv']
      rfl
    | (k', t') :: m, hv, hl, hn =>
      rw [inlineMap_false, inlineMap_true] at hn ⊢
      simp only [List.length_cons, List.length_append, List.length_nil] at hn
      have hv' := tomlValue_inline t hv.1 (n := n) (d := d)
        (rest := ',' :: ([' '] ++ (tomlKey k' ++ (c!" = " ++ (t'.inline ++ (Toml.inlineMap false m ++ ' ' :: '}' :: rest)))))) (by omega)
        (by omega) (afterValue_char _ (by decide) (by decide) (by decide) (by decide))
      have ih := tomlPairs_inline ((k', t') :: m) hv.2 k' t' m rfl (n := n) (d := d) (rest := rest) (w := [' ']) (by decide) hd0 (by omega) (by omega)
      rw [tomlPairs, tomlReadKey_single (by omega) k hw]
      simp only [List.cons_append, List.append_assoc, List.nil_append] at hv' ih ⊢
      rw [hd, hv']
      simp only
      rw [List.dropWhile_cons_of_neg (by decide)]
      simp only
      rw [ih]
      rfl
end

end Rops
