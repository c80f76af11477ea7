import Verif.Model.YamlLayout
import Verif.Lemmas.YamlScalars
/-!
# Scalars in the layout of YAML
-/

namespace Rops

open Spec

/-! ## Quotes -/

theorem readSingle_other {c : Char} (h : c ≠ '\'') (r : Str) : readSingle (c :: r) = (readSingle r).map fun x => (c :: x.1, x.2) := by
  cases r with
  | nil => simp [readSingle, h]
  | cons d r => simp [readSingle, h]

theorem readSingle_end {r : Str} (h : r.head? ≠ some '\'') : readSingle ('\'' :: r) = some ([], r) := by
  cases r with
  | nil => simp [readSingle]
  | cons d r =>
    have : d ≠ '\'' := fun e => h (by rw [e]; rfl)
    simp [readSingle, this]

theorem readSingle_back (s : Str) {r : Str} (h : r.head? ≠ some '\'') :
    readSingle (s.flatMap (fun c => if c = '\'' then c!"''" else [c]) ++ '\'' :: r) = some (s, r) := by
  induction s with
  | nil => exact readSingle_end h
  | cons c s ih =>
    by_cases hc : c = '\''
    · subst hc
      simp only [List.flatMap_cons, if_true, List.append_assoc]
      show readSingle ('\'' :: '\'' :: _) = _
      rw [readSingle]
      exact (congrArg _ ih).trans rfl
    · simp only [List.flatMap_cons, hc, if_false, List.append_assoc]
      show readSingle (c :: _) = _
      rw [readSingle_other hc]
      exact (congrArg _ ih).trans rfl

theorem yamlHexVal {d : Nat} (h : d < 16) : hexVal (hexDigit d) = some d := by
  have : ∀ d : Fin 16, hexVal (hexDigit d) = some d.1 := by decide
  exact this ⟨d, h⟩

theorem yamlHex_digits (w n : Nat) : ∀ c ∈ yamlHex w n, (hexVal c).isSome = true := by
  induction w generalizing n with
  | zero => intro c h; cases h
  | succ w ih =>
    intro c h
    rcases List.mem_append.1 h with h | h
    · exact ih _ _ h
    · rw [List.mem_singleton.1 h, yamlHexVal (Nat.mod_lt _ (by omega))]
      rfl

theorem yamlHex_value (w n : Nat) (h : n < 16 ^ w) : tomlNat 16 (yamlHex w n) = n := by
  induction w generalizing n with
  | zero =>
    have : n = 0 := by simpa using h
    subst this
    rfl
  | succ w ih =>
    have hd := ih (n / 16) (by rw [Nat.pow_succ] at h; omega)
    unfold tomlNat at hd ⊢
    rw [yamlHex, List.foldl_append, hd]
    simp only [List.foldl_cons, List.foldl_nil, yamlHexVal (Nat.mod_lt n (show 0 < 16 by omega)), Option.getD_some]
    omega

theorem hexChar_hex (w : Nat) (c : Char) (h : c.toNat < 16 ^ w) : hexChar (yamlHex w c.toNat) = some c := by
  unfold hexChar
  rw [yamlHex_value _ _ h, if_pos ⟨List.all_eq_true.2 (yamlHex_digits _ _), c.valid⟩]
  simp

theorem char_small (c : Char) : c.toNat < 16 ^ 8 := by
  have := c.val.toNat_lt
  show c.val.toNat < _
  omega

theorem readDouble_escape (c : Char) (r : Str) : readDouble (yamlEscape c ++ r) = (readDouble r).map fun x => (c :: x.1, x.2) := by
  unfold yamlEscape
  split
  · rename_i h
    simp only [Bool.and_eq_true, bne_iff_ne, ne_eq] at h
    simp [readDouble, h.1.2, h.2]
  · split
    · rename_i e he
      have hm := List.mem_of_find?_eq_some he
      have hc : e.2 = c := by simpa using List.find?_some he
      subst hc
      clear he
      simp only [yamlEscapes, List.mem_cons, List.not_mem_nil, or_false] at hm
      rcases hm with rfl | rfl | rfl | rfl | rfl | rfl | rfl | rfl | rfl | rfl | rfl | rfl | rfl | rfl | rfl <;>
        simp [readDouble, readEscape, yamlEscapes]
    · split
      · have := hexChar_hex 2 c (by omega)
        simp only [yamlHex, List.nil_append, List.append_assoc, List.cons_append] at this ⊢
        rw [readDouble, this]
        rfl
      · split
        · have := hexChar_hex 4 c (by omega)
          simp only [yamlHex, List.nil_append, List.append_assoc, List.cons_append] at this ⊢
          rw [readDouble, this]
          rfl
        · have := hexChar_hex 8 c (char_small c)
          simp only [yamlHex, List.nil_append, List.append_assoc, List.cons_append] at this ⊢
          rw [readDouble, this]
          rfl

theorem readDouble_back (s r : Str) : readDouble (s.flatMap yamlEscape ++ '"' :: r) = some (s, r) := by
  induction s with
  | nil => simp [readDouble]
  | cons c s ih => rw [List.flatMap_cons, List.append_assoc, readDouble_escape, ih]; rfl

/-! ## Plain scalars -/

theorem plainAllowed_parts {s : Str} (h : plainAllowed s = true) :
    plainFirst s = true ∧ plainRest false s.tail = true ∧ documentMark s = false ∧ s.all yamlPrintable = true ∧ s.getLast? ≠ some ' ' := by
  unfold plainAllowed at h
  simpa [and_assoc] using h

theorem plainFirst_cons {s : Str} (h : plainFirst s = true) : ∃ c r, s = c :: r ∧ c ∉ yamlIndicators ∧ c ≠ ' ' ∧
    ((c = '?' ∨ c = ':' ∨ c = '-') → blankNext r = false) := by
  cases s with
  | nil => cases h
  | cons c r =>
    unfold plainFirst at h
    simp only [Bool.and_eq_true, Bool.not_eq_true', List.contains_eq_mem, decide_eq_false_iff_not, bne_iff_ne, ne_eq,
      Bool.and_eq_false_iff, Bool.or_eq_false_iff, beq_eq_false_iff_ne] at h
    refine ⟨c, r, rfl, h.1.1, h.1.2, fun hc => ?_⟩
    rcases h.2 with h | h
    · rcases hc with rfl | rfl | rfl
      · exact absurd rfl h.1.1
      · exact absurd rfl h.1.2
      · exact absurd rfl h.2
    · exact h

theorem splitKey_rest {s : Str} {b : Bool} (h : plainRest b s = true) : splitKey s = none ∧
    ∀ x, blankNext x = true → splitKey (s ++ ':' :: x) = some (s, x) := by
  induction s generalizing b with
  | nil => exact ⟨rfl, fun x hx => by simp [splitKey, hx]⟩
  | cons c r ih =>
    rw [plainRest] at h
    simp only [Bool.and_eq_true, Bool.not_eq_true', Bool.and_eq_false_iff, beq_eq_false_iff_ne] at h
    have hn : ¬ (c = ':' ∧ blankNext r = true) := fun ⟨h1, h2⟩ => by
      rcases h.1.1 with h | h
      · exact h h1
      · rw [h2] at h; cases h
    obtain ⟨i1, i2⟩ := ih h.2
    refine ⟨?_, fun x hx => ?_⟩
    · rw [splitKey, if_neg hn, i1]; rfl
    · have hn' : ¬ (c = ':' ∧ blankNext (r ++ ':' :: x) = true) := fun ⟨h1, h2⟩ => by
        cases r with
        | nil => cases h2
        | cons d r => exact hn ⟨h1, h2⟩
      rw [List.cons_append, splitKey, if_neg hn', i2 x hx]; rfl

theorem splitKey_plain {s : Str} (h : plainAllowed s = true) : splitKey s = none ∧
    ∀ x, blankNext x = true → splitKey (s ++ ':' :: x) = some (s, x) := by
  obtain ⟨h1, h2, -⟩ := plainAllowed_parts h
  obtain ⟨c, r, rfl, -, -, hb⟩ := plainFirst_cons h1
  obtain ⟨i1, i2⟩ := splitKey_rest h2
  refine ⟨?_, fun x hx => ?_⟩
  · rw [splitKey, if_neg (fun h => by rw [hb (.inr (.inl h.1))] at h; cases h.2), show splitKey r = none from i1]; rfl
  · have hn' : ¬ (c = ':' ∧ blankNext (r ++ ':' :: x) = true) := fun ⟨h1, h2⟩ => by
      have := hb (.inr (.inl h1))
      cases r with
      | nil => cases h2
      | cons d r => exact absurd (show blankNext (d :: r) = true from h2) (by rw [this]; exact fun e => nomatch e)
    rw [List.cons_append, splitKey, if_neg hn', show splitKey (r ++ ':' :: x) = some (r, x) from i2 x hx]; rfl

theorem beforeComment_rest {s : Str} {b : Bool} (h : plainRest b s = true) : beforeComment s = s := by
  induction s generalizing b with
  | nil => rfl
  | cons c r ih =>
    rw [plainRest] at h
    simp only [Bool.and_eq_true] at h
    rw [beforeComment, if_neg, ih h.2]
    rintro ⟨rfl, hr⟩
    cases r with
    | nil => cases hr
    | cons d r =>
      cases hr
      have := h.2
      simp [plainRest] at this

theorem beforeComment_plain {s : Str} (h : plainAllowed s = true) : beforeComment s = s := by
  obtain ⟨h1, h2, -⟩ := plainAllowed_parts h
  obtain ⟨c, r, rfl, -, hc, -⟩ := plainFirst_cons h1
  rw [beforeComment, if_neg (fun h => hc h.1)]
  exact congrArg _ (beforeComment_rest h2)

theorem trimEnd_plain {s : Str} (h : plainAllowed s = true) : trimEnd s = s := by
  have h5 := (plainAllowed_parts h).2.2.2.2
  unfold trimEnd
  rw [← List.head?_reverse] at h5
  cases hr : s.reverse with
  | nil => rw [List.reverse_eq_nil_iff.1 hr]; rfl
  | cons c r =>
    rw [hr] at h5
    have : c ≠ ' ' := fun e => h5 (by rw [e]; rfl)
    rw [List.dropWhile_cons_of_neg (by simpa using this), ← hr, List.reverse_reverse]

theorem readPlain_plain {s : Str} (h : plainAllowed s = true) : readPlain (trimEnd s) = some (.plain s) := by
  rw [trimEnd_plain h]
  unfold readPlain
  rw [if_pos h]

theorem readScalar_default {n : Nat} {s : Str} {r : List Str} (h : plainFirst s = true) :
    readScalar n s r = (readPlain (trimEnd (beforeComment s))).map fun v => (v, r) := by
  obtain ⟨c, t, rfl, hc, -, -⟩ := plainFirst_cons h
  simp only [yamlIndicators, List.mem_cons, not_or] at hc
  unfold readScalar
  split <;> first | (rename_i e; exact absurd (List.cons.inj e).1 (by simp only [hc, not_false_eq_true])) | rfl

theorem readScalar_plain {n : Nat} {s : Str} {r : List Str} (h : plainAllowed s = true) : readScalar n s r = some (.plain s, r) := by
  rw [readScalar_default (plainAllowed_parts h).1, beforeComment_plain h, readPlain_plain h]; rfl

theorem keyForm_default {s : Str} (h : s.head? ≠ some '\'') (h' : s.head? ≠ some '"') :
    keyForm s = (splitKey s).bind fun x => (readPlain (trimEnd x.1)).map fun k => (k, x.2) := by
  unfold keyForm
  split
  · exact absurd rfl h
  · exact absurd rfl h'
  · rfl

theorem plain_noQuote {s : Str} (h : plainAllowed s = true) (x : Str) : (s ++ x).head? ≠ some '\'' ∧ (s ++ x).head? ≠ some '"' := by
  obtain ⟨c, t, rfl, hc, -, -⟩ := plainFirst_cons (plainAllowed_parts h).1
  constructor <;> intro e <;> cases e <;> exact hc (by decide)

theorem scanKey_none {s : Str} (h : keyForm s = none) : scanKey s = none := by
  unfold scanKey; rw [h]; rfl

theorem scanKey_form {t x : Str} {k : YamlNode} (h : keyForm (t ++ ':' :: x) = some (k, x)) (ht : t.length ≤ 1024) :
    scanKey (t ++ ':' :: x) = some (k, x) := by
  unfold scanKey
  rw [h]
  refine if_pos ?_
  rw [List.length_append, List.length_cons]
  show _ ≤ x.length + 1025
  omega

theorem scanKey_plain {s : Str} (h : plainAllowed s = true) : scanKey s = none ∧
    (s.length ≤ 1024 → ∀ x, blankNext x = true → scanKey (s ++ ':' :: x) = some (.plain s, x)) := by
  obtain ⟨h1, h2⟩ := splitKey_plain h
  constructor
  · have := plain_noQuote h []
    rw [List.append_nil] at this
    refine scanKey_none ?_
    rw [keyForm_default this.1 this.2, h1]; rfl
  · intro hl x hx
    have := plain_noQuote h (':' :: x)
    refine scanKey_form ?_ hl
    rw [keyForm_default this.1 this.2, h2 x hx]
    show (readPlain (trimEnd s)).map _ = _
    rw [readPlain_plain h]; rfl

/-! ## Literal scalars -/

theorem split_noBreak (s : Str) : ∀ cur, '\n' ∉ cur → ∀ l ∈ yamlSplit cur s, '\n' ∉ l := by
  induction s with
  | nil =>
    intro cur h l hl
    rw [yamlSplit] at hl
    split at hl
    · cases hl
    · rw [List.mem_singleton.1 hl]; exact h
  | cons c s ih =>
    intro cur h l hl
    rw [yamlSplit] at hl
    split at hl
    · rcases List.mem_cons.1 hl with rfl | hl
      · exact h
      · exact ih [] (by simp) l hl
    · rename_i hc
      exact ih (cur ++ [c]) (by simpa [h] using fun e => hc e.symm) l hl

theorem split_chars (s : Str) : ∀ cur, ∀ l ∈ yamlSplit cur s, ∀ c ∈ l, c ∈ cur ∨ c ∈ s := by
  induction s with
  | nil =>
    intro cur l hl c hc
    rw [yamlSplit] at hl
    split at hl
    · cases hl
    · rw [List.mem_singleton.1 hl] at hc; exact .inl hc
  | cons d s ih =>
    intro cur l hl c hc
    rw [yamlSplit] at hl
    split at hl
    · rcases List.mem_cons.1 hl with rfl | hl
      · exact .inl hc
      · rcases ih [] l hl c hc with h | h
        · cases h
        · exact .inr (List.mem_cons_of_mem _ h)
    · rcases ih _ l hl c hc with h | h
      · rcases List.mem_append.1 h with h | h
        · exact .inl h
        · rw [List.mem_singleton.1 h]; exact .inr (by simp)
      · exact .inr (List.mem_cons_of_mem _ h)

theorem split_snoc {c : Char} (hc : c ≠ '\n') (s : Str) : ∀ cur, ∃ A l, yamlSplit cur (s ++ [c]) = A ++ [l ++ [c]] ∧
    yamlSplit cur (s ++ [c, '\n']) = A ++ [l ++ [c]] ∧ yamlJoin A ++ l = cur ++ s := by
  induction s with
  | nil =>
    intro cur
    refine ⟨[], cur, ?_, ?_, by simp [yamlJoin]⟩
    · simp [yamlSplit, hc]
    · simp [yamlSplit, hc]
  | cons d s ih =>
    intro cur
    by_cases hd : d = '\n'
    · obtain ⟨A, l, h1, h2, h3⟩ := ih []
      refine ⟨cur :: A, l, ?_, ?_, ?_⟩
      · simp [yamlSplit, hd, h1]
      · simp [yamlSplit, hd, h2]
      · rw [List.nil_append] at h3
        simp [yamlJoin, hd] at h3 ⊢
        exact h3
    · obtain ⟨A, l, h1, h2, h3⟩ := ih (cur ++ [d])
      refine ⟨A, l, ?_, ?_, ?_⟩
      · simp [yamlSplit, hd, h1]
      · simp [yamlSplit, hd, h2]
      · rw [h3]; simp

theorem split_ends (s : Str) : ∀ cur, yamlJoin (yamlSplit cur (s ++ ['\n'])) = cur ++ (s ++ ['\n']) := by
  induction s with
  | nil => intro cur; simp [yamlSplit, yamlJoin]
  | cons d s ih =>
    intro cur
    by_cases hd : d = '\n'
    · have := ih []
      simp [yamlSplit, hd, yamlJoin] at this ⊢
      exact this
    · have := ih (cur ++ [d])
      simp [yamlSplit, hd] at this ⊢
      exact this

theorem dropEmptyEnd_snoc {A : List Str} {l : Str} (h : l ≠ []) : dropEmptyEnd (A ++ [l]) = A ++ [l] := by
  unfold dropEmptyEnd
  rw [List.reverse_append, List.reverse_singleton, List.singleton_append, List.dropWhile_cons_of_neg (by simpa using h)]
  simp

/-- The sign of a literal scalar keeps its text. -/
theorem literal_back (s : Str) (h : s ≠ []) : literalText (literalChomp s).head? (yamlSplit [] s) = s := by
  obtain ⟨a, c, rfl⟩ : ∃ a c, s = a ++ [c] := ⟨s.dropLast, s.getLast h, (List.dropLast_concat_getLast h).symm⟩
  by_cases hc : c = '\n'
  · subst hc
    by_cases ha : a = []
    · subst ha; decide
    · obtain ⟨b, d, rfl⟩ : ∃ b d, a = b ++ [d] := ⟨a.dropLast, a.getLast ha, (List.dropLast_concat_getLast ha).symm⟩
      by_cases hd : d = '\n'
      · subst hd
        have : literalChomp (b ++ ['\n'] ++ ['\n']) = c!"+" := by
          unfold literalChomp
          rw [List.reverse_append, List.reverse_append]
          rfl
        rw [this]
        exact split_ends (b ++ ['\n']) []
      · have : literalChomp (b ++ [d] ++ ['\n']) = [] := by
          unfold literalChomp
          rw [List.reverse_append, List.reverse_append]
          simp only [List.reverse_singleton, List.singleton_append]
          split <;> simp_all
        obtain ⟨A, l, h1, h2, h3⟩ := split_snoc hd b []
        rw [this, List.append_assoc]
        show literalText none (yamlSplit [] (b ++ [d, '\n'])) = _
        have := split_ends (b ++ [d]) []
        rw [List.append_assoc] at this
        unfold literalText
        simp only [reduceCtorEq, if_false]
        rw [h2, dropEmptyEnd_snoc (by simp), ← h2]
        exact this
  · have : literalChomp (a ++ [c]) = c!"-" := by
      unfold literalChomp
      rw [List.reverse_append]
      simp only [List.reverse_singleton, List.singleton_append]
      split <;> simp_all
    obtain ⟨A, l, h1, h2, h3⟩ := split_snoc hc a []
    rw [this]
    show (yamlJoin (dropEmptyEnd (yamlSplit [] (a ++ [c])))).dropLast = _
    have := split_ends (a ++ [c]) []
    rw [List.append_assoc] at this
    rw [h1, dropEmptyEnd_snoc (by simp), ← h2, show a ++ [c, '\n'] = a ++ ([c] ++ ['\n']) from rfl, this]
    simp [← List.append_assoc]

end Rops
