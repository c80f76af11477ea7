import Verif.Lemmas.YamlForms
/-!
# Blocks in the layout of YAML
-/

namespace Rops

open Spec

/-! ## What is read -/

mutual
/-- A node as it is read. -/
def YamlNode.settled : YamlNode → YamlNode
  | .plain s => .plain s
  | .free s => if plainAllowed s then .plain s else .quoted s
  | .quoted s => .quoted s
  | .seq l => .seq (YamlNode.settledSeq l)
  | .map l => .map (YamlNode.settledMap l)
  | .tagged t v => .tagged t v.settled
/-- See `YamlNode.settled`. -/
def YamlNode.settledSeq : List YamlNode → List YamlNode
  | [] => []
  | v :: r => v.settled :: YamlNode.settledSeq r
/-- See `YamlNode.settled`. -/
def YamlNode.settledMap : List (YamlNode × YamlNode) → List (YamlNode × YamlNode)
  | [] => []
  | (k, v) :: r => (k.settled, v.settled) :: YamlNode.settledMap r
end

mutual
theorem settled_chosen : ∀ v : YamlNode, YamlChosen v v.settled
  | .plain s => .plain
  | .free s => by
    show YamlChosen _ (if plainAllowed s then _ else _)
    split
    · exact .free
    · exact .quote
  | .quoted s => .quoted
  | .seq l => .seq (settledSeq_chosen l)
  | .map l => .map (settledMap_chosen l)
  | .tagged t v => .tagged (settled_chosen v)
theorem settledSeq_chosen : ∀ l : List YamlNode, YamlChosenSeq l (YamlNode.settledSeq l)
  | [] => .nil
  | v :: r => .cons (settled_chosen v) (settledSeq_chosen r)
theorem settledMap_chosen : ∀ l : List (YamlNode × YamlNode), YamlChosenMap l (YamlNode.settledMap l)
  | [] => .nil
  | (k, v) :: r => .cons (settled_chosen k) (settled_chosen v) (settledMap_chosen r)
end

mutual
/-- A node without tags where what is plain may be plain. -/
def NodeOk : YamlNode → Prop
  | .plain s => plainAllowed s = true
  | .free _ => True
  | .quoted _ => True
  | .seq l => SeqOk l
  | .map l => MapOk l
  | .tagged _ _ => False
/-- See `NodeOk`. -/
def SeqOk : List YamlNode → Prop
  | [] => True
  | v :: r => NodeOk v ∧ SeqOk r
/-- See `NodeOk`. -/
def MapOk : List (YamlNode × YamlNode) → Prop
  | [] => True
  | (k, v) :: r => NodeOk k ∧ NodeOk v ∧ MapOk r
end

/-! ## Lines -/

/-- A text that begins neither with white space nor a comment. -/
def Solid (b : Str) : Prop := ∃ c r, b = c :: r ∧ c ≠ ' ' ∧ c ≠ '#'

theorem pad_takeWhile (n : Nat) {c : Char} (h : c ≠ ' ') (r : Str) :
    (yamlPad n ++ c :: r).takeWhile (· == ' ') = yamlPad n ∧ (yamlPad n ++ c :: r).dropWhile (· == ' ') = c :: r := by
  have h' : ¬ (c == ' ') = true := by simpa using h
  induction n with
  | zero => exact ⟨List.takeWhile_cons_of_neg h', List.dropWhile_cons_of_neg h'⟩
  | succ n ih =>
    show (' ' :: (yamlPad n ++ c :: r)).takeWhile _ = ' ' :: yamlPad n ∧ (' ' :: (yamlPad n ++ c :: r)).dropWhile _ = _
    rw [List.takeWhile_cons_of_pos rfl, List.dropWhile_cons_of_pos rfl, ih.1]
    exact ⟨rfl, ih.2⟩

theorem indentOf_pad {n : Nat} {b : Str} (h : Solid b) : indentOf (yamlPad n ++ b) = n := by
  obtain ⟨c, r, rfl, hc, -⟩ := h
  unfold indentOf
  rw [(pad_takeWhile n hc r).1]
  simp [yamlPad]

theorem bodyOf_pad {n : Nat} {b : Str} (h : Solid b) : bodyOf (yamlPad n ++ b) = b := by
  obtain ⟨c, r, rfl, hc, -⟩ := h
  exact (pad_takeWhile n hc r).2

theorem emptyLine_pad {n : Nat} {b : Str} (h : Solid b) : emptyLine (yamlPad n ++ b) = false := by
  unfold emptyLine
  rw [bodyOf_pad h]
  obtain ⟨c, r, rfl, -, hc⟩ := h
  simpa using hc

theorem skip_pad {n : Nat} {b : Str} (h : Solid b) (r : List Str) :
    ((yamlPad n ++ b) :: r).dropWhile emptyLine = (yamlPad n ++ b) :: r :=
  List.dropWhile_cons_of_neg (by rw [emptyLine_pad h]; exact fun e => nomatch e)

theorem pad_add (m : Nat) (b : Str) : (yamlPad (m + 2) ++ b).drop (m + 1) = ' ' :: b := by
  have : yamlPad (m + 2) = yamlPad (m + 1) ++ [' '] := List.replicate_succ'
  rw [this, List.append_assoc, List.drop_left' (by simp [yamlPad])]
  rfl

theorem markLine_pad (m : Nat) (c : Char) (b : Str) (tl : List Str) :
    markLine m c ((yamlPad (m + 2) ++ b) :: tl) = (yamlPad m ++ c :: ' ' :: b) :: tl := by
  rw [markLine, pad_add]

theorem unmark_pad {m : Nat} {c : Char} (h : c ≠ ' ') (b : Str) : unmark (yamlPad m ++ c :: ' ' :: b) = yamlPad (m + 2) ++ b := by
  unfold unmark indentOf bodyOf
  obtain ⟨h1, h2⟩ := pad_takeWhile m h (' ' :: b)
  rw [h1, h2]
  show yamlPad ((List.replicate m ' ').length + 1) ++ ' ' :: b = _
  rw [List.length_replicate, show yamlPad (m + 2) = yamlPad (m + 1) ++ [' '] from List.replicate_succ', List.append_assoc]
  rfl

/-- The next line, if there is one, is not empty and less indented than this. -/
def Ends (n : Nat) (rest : List Str) : Prop := ∀ l, rest.head? = some l → emptyLine l = false ∧ indentOf l < n

/-- The next line, if there is one, is not an item of a sequence with this indentation. -/
def EndsSeq (m : Nat) (rest : List Str) : Prop :=
  ∀ l, rest.head? = some l → emptyLine l = false ∧ indentOf l ≤ m ∧ (indentOf l = m → hasMark '-' (bodyOf l) = false)

theorem Ends.more {n m : Nat} {rest : List Str} (h : Ends n rest) (hm : n ≤ m) : Ends m rest :=
  fun l hl => ⟨(h l hl).1, Nat.lt_of_lt_of_le (h l hl).2 hm⟩

theorem Ends.seq {n : Nat} {rest : List Str} (h : Ends n rest) : EndsSeq n rest := fun l hl => by
  have := h l hl
  exact ⟨this.1, by omega, fun e => by omega⟩

theorem EndsSeq.ends {m : Nat} {rest : List Str} (h : EndsSeq m rest) : Ends (m + 1) rest := fun l hl => by
  have := h l hl
  exact ⟨this.1, by omega⟩

theorem Ends.skip {n : Nat} {rest : List Str} (h : Ends n rest) : rest.dropWhile emptyLine = rest := by
  cases rest with
  | nil => rfl
  | cons l r => exact List.dropWhile_cons_of_neg (by rw [(h l rfl).1]; exact fun e => nomatch e)

theorem ends_pad {n m : Nat} {b : Str} (h : Solid b) (hm : m < n) (r : List Str) : Ends n ((yamlPad m ++ b) :: r) := by
  intro l hl
  cases hl
  exact ⟨emptyLine_pad h, by rw [indentOf_pad h]; exact hm⟩

/-! ## Literal scalars -/

theorem blank_empty {l : Str} (h : emptyLine l = false) : blankLine l = false := by
  cases hb : blankLine l with
  | false => rfl
  | true =>
    have : bodyOf l = [] := by
      unfold blankLine at hb
      unfold bodyOf
      clear h
      induction l with
      | nil => rfl
      | cons c l ih =>
        rw [List.all_cons, Bool.and_eq_true] at hb
        rw [List.dropWhile_cons_of_pos (p := (· == ' ')) hb.1]
        exact ih hb.2
    unfold emptyLine at h
    rw [this] at h
    cases h

theorem indentOf_padded (k : Nat) (l : Str) : k ≤ indentOf (yamlPad k ++ l) := by
  unfold indentOf yamlPad
  induction k with
  | zero => omega
  | succ k ih =>
    rw [List.replicate_succ, List.cons_append, List.takeWhile_cons_of_pos rfl]
    simp only [List.length_cons]
    omega

theorem takeLiteral_back {k : Nat} (hk : 1 ≤ k) (L : List Str) {rest : List Str} (h : Ends k rest) :
    takeLiteral k (literalLines k L ++ rest) = (L, rest) := by
  induction L with
  | nil =>
    cases rest with
    | nil => rfl
    | cons l r =>
      obtain ⟨h1, h2⟩ := h l rfl
      show takeLiteral k (l :: r) = _
      rw [takeLiteral, if_neg (by omega), blank_empty h1]
      rfl
  | cons l L ih =>
    have ih' : takeLiteral k (List.map (fun l => if l = [] then [] else yamlPad k ++ l) L ++ rest) = (L, rest) := ih
    by_cases hl : l = []
    · subst hl
      show takeLiteral k ([] :: (literalLines k L ++ rest)) = _
      rw [takeLiteral, if_neg (by simp [indentOf]; omega), ih]
      rfl
    · show takeLiteral k ((if l = [] then [] else yamlPad k ++ l) :: (literalLines k L ++ rest)) = _
      rw [if_neg hl, takeLiteral, if_pos (indentOf_padded k l), ih, List.drop_left' (by simp [yamlPad])]

theorem split_first (s : Str) : ∀ (c : Char) (cur : Str), ∃ l L, yamlSplit (c :: cur) s = (c :: l) :: L := by
  induction s with
  | nil => exact fun c cur => ⟨cur, [], by simp [yamlSplit]⟩
  | cons d s ih =>
    intro c cur
    rw [yamlSplit]
    split
    · exact ⟨cur, _, rfl⟩
    · exact ih c (cur ++ [d])

theorem literalChomp_cases (s : Str) : literalChomp s = c!"+" ∨ literalChomp s = c!"-" ∨ literalChomp s = [] := by
  unfold literalChomp
  split <;> simp

theorem literalHint_cases (s : Str) : literalHint s = c!"2" ∨ literalHint s = [] := by
  unfold literalHint
  split
  · split <;> simp
  · exact .inr rfl

/-- The number in the header of a literal scalar. -/
def hintNumber (s : Str) : Option Nat := if literalHint s = [] then none else some 2

theorem literalHeader_back (s : Str) : literalHeader (literalHint s ++ literalChomp s) = some ((literalChomp s).head?, hintNumber s) := by
  unfold hintNumber
  rcases literalHint_cases s with h | h <;> rcases literalChomp_cases s with h' | h' | h' <;> rw [h, h'] <;> decide +kernel

theorem literalIndent_back {n : Nat} (hn : 1 ≤ n) {s : Str} (hs : s ≠ []) (rest : List Str) :
    literalIndent n (hintNumber s) (literalLines (n + 1) (yamlSplit [] s) ++ rest) = some (n + 1) := by
  cases s with
  | nil => exact absurd rfl hs
  | cons c r =>
    unfold hintNumber literalHint
    by_cases hc : c = ' ' ∨ c = '\n'
    · simp only [hc, if_true, literalIndent]
      simp
      omega
    · simp only [hc, if_false, if_true, literalIndent]
      obtain ⟨l, L, hl⟩ := split_first r c []
      have : yamlSplit [] (c :: r) = (c :: l) :: L := by
        rw [yamlSplit, if_neg (fun e => hc (.inr e))]
        exact hl
      rw [this]
      show (if blankLine (yamlPad (n + 1) ++ c :: l) = true ∨ indentOf (yamlPad (n + 1) ++ c :: l) < n then none
        else some (indentOf (yamlPad (n + 1) ++ c :: l))) = _
      have hi : indentOf (yamlPad (n + 1) ++ c :: l) = n + 1 := by
        unfold indentOf
        rw [(pad_takeWhile (n + 1) (fun e => hc (.inl e)) l).1]
        simp [yamlPad]
      rw [hi, if_neg]
      rintro (h | h)
      · have := List.all_eq_true.1 h c (by simp)
        exact hc (.inl (by simpa using this))
      · omega

theorem readLiteral_back {n : Nat} (hn : 1 ≤ n) {s : Str} (hs : s ≠ []) {rest : List Str} (h : Ends (n + 1) rest) :
    readLiteral n (literalHint s ++ literalChomp s) (literalLines (n + 1) (yamlSplit [] s) ++ rest) = some (.quoted s, rest) := by
  unfold readLiteral
  rw [literalHeader_back, Option.bind_some, literalIndent_back hn hs, Option.map_some, takeLiteral_back (by omega) _ h, literal_back s hs]

/-! ## Scalars -/

/-- What is on the line of a scalar, and the lines below it. -/
def scalarForm : YamlNode → Option (Str × List Str)
  | .plain s => some (s, [])
  | .free s => some (freeForm s)
  | .quoted s => some (quotedForm s)
  | .seq [] => some (c!"[]", [])
  | .map [] => some (c!"{}", [])
  | _ => none

theorem lines_form {v : YamlNode} {p : Str × List Str} (h : scalarForm v = some p) (m : Nat) (k : Str) :
    v.lines m = (yamlPad m ++ p.1) :: literalLines m p.2 ∧ v.afterKey m k = (k ++ (c!": " ++ p.1)) :: literalLines (m + 2) p.2 := by
  unfold scalarForm at h
  split at h <;> cases h <;> exact ⟨by simp [YamlNode.lines, literalLines], by simp [YamlNode.afterKey, literalLines]⟩

/-- How a scalar is read. -/
structure ScalarRead (p : Str × List Str) (v : YamlNode) : Prop where
  solid : Solid p.1
  noDash : hasMark '-' p.1 = false
  noQuestion : hasMark '?' p.1 = false
  noKey : scanKey p.1 = none
  read : ∀ n rest, 1 ≤ n → Ends (n + 1) rest → readScalar n p.1 (literalLines (n + 1) p.2 ++ rest) = some (v, rest)

theorem plain_solid {s : Str} (h : plainAllowed s = true) : Solid s := by
  obtain ⟨c, r, rfl, h1, h2, -⟩ := plainFirst_cons (plainAllowed_parts h).1
  exact ⟨c, r, rfl, h2, fun e => h1 (by rw [e]; decide)⟩

theorem plain_noMark {s : Str} (h : plainAllowed s = true) {x : Char} (hx : x = '-' ∨ x = '?') (y : Str) :
    hasMark x (s ++ y) = false := by
  obtain ⟨c, r, rfl, -, -, hb⟩ := plainFirst_cons (plainAllowed_parts h).1
  show (c == x && blankNext (r ++ y)) = false
  by_cases hc : c = x
  · subst hc
    have hr := hb (by rcases hx with rfl | rfl <;> simp)
    rw [Bool.and_eq_false_iff]
    right
    cases r with
    | nil => cases hr
    | cons d r => exact hr
  · simp [hc]

theorem plain_read {s : Str} (h : plainAllowed s = true) : ScalarRead (s, []) (.plain s) where
  solid := plain_solid h
  noDash := by have := plain_noMark h (.inl rfl) []; rwa [List.append_nil] at this
  noQuestion := by have := plain_noMark h (.inr rfl) []; rwa [List.append_nil] at this
  noKey := (scanKey_plain h).1
  read _ _ _ _ := readScalar_plain h

theorem single_read (s : Str) : ScalarRead (yamlSingle s, []) (.quoted s) where
  solid := ⟨_, _, rfl, by decide, by decide⟩
  noDash := rfl
  noQuestion := rfl
  noKey := by
    refine scanKey_none ?_
    show (readSingle (_ ++ ['\''])).bind _ = _
    rw [readSingle_back s (by simp)]
    rfl
  read _ _ _ _ := by
    show (readSingle (_ ++ ['\''])).bind _ = _
    rw [readSingle_back s (by simp)]
    rfl

theorem double_read (s : Str) : ScalarRead (yamlDouble s, []) (.quoted s) where
  solid := ⟨_, _, rfl, by decide, by decide⟩
  noDash := rfl
  noQuestion := rfl
  noKey := by
    refine scanKey_none ?_
    show (readDouble (_ ++ ['"'])).bind _ = _
    rw [readDouble_back s]
    rfl
  read _ _ _ _ := by
    show (readDouble (_ ++ ['"'])).bind _ = _
    rw [readDouble_back s]
    rfl

theorem literal_read {s : Str} (hs : s ≠ []) : ScalarRead ('|' :: (literalHint s ++ literalChomp s), yamlSplit [] s) (.quoted s) where
  solid := ⟨_, _, rfl, by decide, by decide⟩
  noDash := rfl
  noQuestion := rfl
  noKey := by rcases literalHint_cases s with h | h <;> rcases literalChomp_cases s with h' | h' | h' <;> rw [h, h'] <;> rfl
  read _ _ hn hr := readLiteral_back hn hs hr

theorem quoted_read (s : Str) : ScalarRead (quotedForm s) (.quoted s) := by
  unfold quotedForm
  split
  · rename_i h
    split
    · exact literal_read (List.ne_nil_of_mem h)
    · exact double_read s
  · split
    · exact single_read s
    · exact double_read s

theorem scalar_read {v : YamlNode} (hv : NodeOk v) {p : Str × List Str} (h : scalarForm v = some p) : ScalarRead p v.settled := by
  unfold scalarForm at h
  split at h <;> cases h
  · exact plain_read hv
  · rename_i s
    unfold freeForm YamlNode.settled
    split
    · exact plain_read ‹_›
    · exact quoted_read s
  · exact quoted_read _
  · exact ⟨⟨_, _, rfl, by decide, by decide⟩, rfl, rfl, rfl, fun _ _ _ _ => rfl⟩
  · exact ⟨⟨_, _, rfl, by decide, by decide⟩, rfl, rfl, rfl, fun _ _ _ _ => rfl⟩

/-! ## Keys -/

/-- How a simple key is read. -/
structure YamlKeyRead (t : Str) (k : YamlNode) : Prop where
  solid : Solid t
  noDash : ∀ x, hasMark '-' (t ++ ':' :: x) = false
  noQuestion : ∀ x, hasMark '?' (t ++ ':' :: x) = false
  key : ∀ x, blankNext x = true → scanKey (t ++ ':' :: x) = some (k, x)

theorem plain_key {s : Str} (h : plainAllowed s = true) (hl : s.length ≤ 1024) : YamlKeyRead s (.plain s) where
  solid := plain_solid h
  noDash x := plain_noMark h (.inl rfl) _
  noQuestion x := plain_noMark h (.inr rfl) _
  key := (scanKey_plain h).2 hl

theorem afterColon_at {x : Str} (hx : blankNext x = true) : afterColon (':' :: x) = some x := if_pos ⟨rfl, hx⟩

theorem quoted_key {s : Str} (h : '\n' ∉ s) (hl : (quotedForm s).1.length ≤ 1024) : YamlKeyRead (quotedForm s).1 (.quoted s) := by
  revert hl
  unfold quotedForm
  rw [if_neg h]
  split
  · intro hl
    refine ⟨⟨_, _, rfl, by decide, by decide⟩, fun _ => rfl, fun _ => rfl, fun x hx => scanKey_form ?_ hl⟩
    show (readSingle ((_ ++ ['\'']) ++ _)).bind _ = _
    rw [List.append_assoc]
    show (readSingle (_ ++ '\'' :: (':' :: x))).bind _ = _
    rw [readSingle_back s (by simp)]
    show (afterColon (':' :: x)).map _ = _
    rw [afterColon_at hx]; rfl
  · intro hl
    refine ⟨⟨_, _, rfl, by decide, by decide⟩, fun _ => rfl, fun _ => rfl, fun x hx => scanKey_form ?_ hl⟩
    show (readDouble ((_ ++ ['"']) ++ _)).bind _ = _
    rw [List.append_assoc]
    show (readDouble (_ ++ '"' :: (':' :: x))).bind _ = _
    rw [readDouble_back s]
    show (afterColon (':' :: x)).map _ = _
    rw [afterColon_at hx]; rfl

/-! The keys that are written before their values have few characters. -/

theorem yamlHex_length (w : Nat) : ∀ n, (yamlHex w n).length = w := by
  induction w with
  | zero => exact fun _ => rfl
  | succ w ih => intro n; rw [yamlHex, List.length_append, ih]; rfl

theorem utf8_char (c : Char) : 1 ≤ (String.utf8EncodeChar c).length ∧ (0x7f < c.toNat → 2 ≤ (String.utf8EncodeChar c).length) ∧
    (0x7ff < c.toNat → 3 ≤ (String.utf8EncodeChar c).length) := by
  rw [String.length_utf8EncodeChar]
  unfold Char.utf8Size
  have e1 : c.val ≤ UInt32.ofNatLT 0x7F (by decide) ↔ c.toNat ≤ 0x7f := UInt32.le_iff_toNat_le
  have e2 : c.val ≤ UInt32.ofNatLT 0x7FF (by decide) ↔ c.toNat ≤ 0x7ff := UInt32.le_iff_toNat_le
  simp only [e1, e2]
  by_cases h1 : c.toNat ≤ 0x7f
  · rw [if_pos h1]; omega
  · rw [if_neg h1]
    by_cases h2 : c.toNat ≤ 0x7ff
    · rw [if_pos h2]; omega
    · rw [if_neg h2]
      split <;> omega

theorem escape_length (c : Char) : (yamlEscape c).length ≤ 4 * (String.utf8EncodeChar c).length := by
  obtain ⟨h1, h2, h3⟩ := utf8_char c
  unfold yamlEscape
  split
  · show 1 ≤ _; omega
  · rename_i hp
    split
    · show 2 ≤ _; omega
    · split
      · show (_ :: _ :: yamlHex 2 _).length ≤ _
        rw [List.length_cons, List.length_cons, yamlHex_length]; omega
      · rename_i h
        split
        · show (_ :: _ :: yamlHex 4 _).length ≤ _
          rw [List.length_cons, List.length_cons, yamlHex_length]
          have := h2 (by omega)
          omega
        · show (_ :: _ :: yamlHex 8 _).length ≤ _
          rw [List.length_cons, List.length_cons, yamlHex_length]
          have := h3 (by omega)
          omega

theorem flatMap_length {f : Char → Str} {k : Nat} (h : ∀ c, (f c).length ≤ k * (String.utf8EncodeChar c).length) (s : Str) :
    (s.flatMap f).length ≤ k * (utf8 s).length := by
  induction s with
  | nil => exact Nat.zero_le _
  | cons c s ih =>
    have e : (utf8 (c :: s)).length = (String.utf8EncodeChar c).length + (utf8 s).length := by
      show ((c :: s).flatMap _).length = _
      rw [List.flatMap_cons, List.length_append]; rfl
    rw [List.flatMap_cons, List.length_append, e, Nat.mul_add]
    exact Nat.add_le_add (h c) ih

theorem quoted_length {s : Str} (h : '\n' ∉ s) (hs : (utf8 s).length ≤ 128) : (quotedForm s).1.length ≤ 1024 := by
  unfold quotedForm
  rw [if_neg h]
  split
  · have := flatMap_length (f := fun c => if c = '\'' then c!"''" else [c]) (k := 4) (fun c => by
      have := (utf8_char c).1
      split
      · show 2 ≤ _; omega
      · show 1 ≤ _; omega) s
    show (_ :: (_ ++ ['\''])).length ≤ _
    rw [List.length_cons, List.length_append]
    show _ + 1 + 1 ≤ _
    omega
  · have := flatMap_length (k := 4) escape_length s
    show (_ :: (_ ++ ['"'])).length ≤ _
    rw [List.length_cons, List.length_append]
    show _ + 1 + 1 ≤ _
    omega

theorem plain_length {s : Str} (hs : (utf8 s).length ≤ 128) : s.length ≤ 1024 := by
  have := flatMap_length (f := fun c => [c]) (k := 1) (fun c => by have := (utf8_char c).1; show 1 ≤ _; omega) s
  rw [List.flatMap_singleton'] at this
  omega

theorem simple_short {s : Str} (h : simpleText s = true) : (utf8 s).length ≤ 128 := by
  unfold simpleText at h
  rw [Bool.and_eq_true] at h
  exact of_decide_eq_true h.2

theorem simple_noBreak {s : Str} (h : simpleText s = true) : '\n' ∉ s := by
  intro hm
  unfold simpleText at h
  rw [Bool.and_eq_true] at h
  have := List.all_eq_true.1 h.1 _ hm
  simp at this

theorem ifSome {α : Type} {p : Prop} [Decidable p] {a b : α} (h : (if p then some a else none) = some b) : p ∧ a = b := by
  split at h
  · exact ⟨‹_›, Option.some.inj h⟩
  · cases h

theorem key_read {k : YamlNode} (hk : NodeOk k) {t : Str} (h : k.keyText = some t) : YamlKeyRead t k.settled := by
  cases k with
  | plain s =>
    obtain ⟨hs, rfl⟩ := ifSome (show (if simpleText s = true then some s else none) = some t from h)
    exact plain_key hk (plain_length (simple_short hs))
  | free s =>
    obtain ⟨hs, rfl⟩ := ifSome (show (if simpleText s = true then some (freeForm s).1 else none) = some t from h)
    unfold freeForm YamlNode.settled
    split
    · exact plain_key ‹_› (plain_length (simple_short hs))
    · exact quoted_key (simple_noBreak hs) (quoted_length (simple_noBreak hs) (simple_short hs))
  | quoted s =>
    obtain ⟨hs, rfl⟩ := ifSome (show (if simpleText s = true then some (quotedForm s).1 else none) = some t from h)
    exact quoted_key (simple_noBreak hs) (quoted_length (simple_noBreak hs) (simple_short hs))
  | seq l => cases h
  | map l => cases h
  | tagged t v => cases h

theorem flowNext_some {α : Type} {close : Char} {v : α} {more : Str → Option (List α × Str)} {s : Str} {x : List α × Str}
    (h : flowNext close v more s = some x) : (∃ r y, bodyOf s = ',' :: r ∧ more r = some y ∧ x = (v :: y.1, y.2)) ∨
      ∃ r, bodyOf s = close :: r ∧ x = ([v], r) := by
  unfold flowNext at h
  split at h
  · rename_i c r e
    split at h
    · rename_i hc
      obtain ⟨y, hy, rfl⟩ := Option.map_eq_some_iff.1 h
      exact .inl ⟨r, y, by rw [e, hc], hy, rfl⟩
    · obtain ⟨hc, rfl⟩ := ifSome h
      exact .inr ⟨r, by rw [e, hc], rfl⟩
  · cases h

/-! ## The first lines -/

theorem afterKey_head {v : YamlNode} (hv : NodeOk v) (m : Nat) (k : Str) :
    ∃ x tl, v.afterKey m k = (k ++ ':' :: x) :: tl ∧ blankNext x = true := by
  cases v with
  | plain s => exact ⟨' ' :: s, _, rfl, rfl⟩
  | free s => exact ⟨' ' :: (freeForm s).1, _, rfl, rfl⟩
  | quoted s => exact ⟨' ' :: (quotedForm s).1, _, rfl, rfl⟩
  | seq l =>
    cases l with
    | nil => exact ⟨c!" []", _, rfl, rfl⟩
    | cons v l => exact ⟨[], _, rfl, rfl⟩
  | map l =>
    cases l with
    | nil => exact ⟨c!" {}", _, rfl, rfl⟩
    | cons v l => exact ⟨[], _, rfl, rfl⟩
  | tagged t v => exact absurd hv id

mutual
theorem lines_head : ∀ (v : YamlNode), NodeOk v → ∀ m, ∃ b tl, v.lines m = (yamlPad m ++ b) :: tl ∧ Solid b
  | .plain s, hv, m => ⟨_, _, (lines_form (v := .plain s) rfl m []).1, (scalar_read hv rfl).solid⟩
  | .free s, hv, m => ⟨_, _, (lines_form (v := .free s) rfl m []).1, (scalar_read hv rfl).solid⟩
  | .quoted s, hv, m => ⟨_, _, (lines_form (v := .quoted s) rfl m []).1, (scalar_read hv rfl).solid⟩
  | .seq [], _, m => ⟨c!"[]", [], rfl, _, _, rfl, by decide, by decide⟩
  | .map [], _, m => ⟨c!"{}", [], rfl, _, _, rfl, by decide, by decide⟩
  | .seq (v :: l), hv, m => by
    obtain ⟨b, tl, h, -⟩ := lines_head v hv.1 (m + 2)
    refine ⟨'-' :: ' ' :: b, tl ++ YamlNode.seqLines l m, ?_, _, _, rfl, by decide, by decide⟩
    show markLine m '-' (v.lines (m + 2)) ++ _ = _
    rw [h, markLine_pad]
    rfl
  | .map ((k, v) :: l), hv, m => by
    show ∃ b tl, YamlNode.mapLines ((k, v) :: l) m = _ ∧ _
    rw [YamlNode.mapLines]
    cases hk : k.keyText with
    | none =>
      obtain ⟨b, tl, h, -⟩ := lines_head k hv.1 (m + 2)
      simp only [h, markLine_pad]
      exact ⟨'?' :: ' ' :: b, _, rfl, _, _, rfl, by decide, by decide⟩
    | some t =>
      obtain ⟨x, tl, h, -⟩ := afterKey_head hv.2.1 m (yamlPad m ++ t)
      obtain ⟨c, r, rfl, h1, h2⟩ := (key_read hv.1 hk).solid
      simp only [h]
      exact ⟨c :: r ++ ':' :: x, tl ++ YamlNode.mapLines l m, by simp, _, _, rfl, h1, h2⟩
  | .tagged t v, hv, m => absurd hv id
end

theorem seqLines_head {v : YamlNode} (hv : NodeOk v) (l : List YamlNode) (m : Nat) :
    ∃ b tl, v.lines (m + 2) = (yamlPad (m + 2) ++ b) :: tl ∧
      YamlNode.seqLines (v :: l) m = (yamlPad m ++ '-' :: ' ' :: b) :: (tl ++ YamlNode.seqLines l m) := by
  obtain ⟨b, tl, h, -⟩ := lines_head v hv (m + 2)
  refine ⟨b, tl, h, ?_⟩
  rw [YamlNode.seqLines, h, markLine_pad]
  rfl

theorem dash_solid (b : Str) : Solid ('-' :: ' ' :: b) := ⟨_, _, rfl, by decide, by decide⟩

theorem mapLines_head {k v : YamlNode} (hk : NodeOk k) (hv : NodeOk v) (l : List (YamlNode × YamlNode)) (m : Nat) :
    ∃ b tl, YamlNode.mapLines ((k, v) :: l) m = (yamlPad m ++ b) :: tl ∧ Solid b ∧ hasMark '-' b = false ∧
      (hasMark '?' b || (scanKey b).isSome) = true := by
  rw [YamlNode.mapLines]
  cases ht : k.keyText with
  | none =>
    obtain ⟨b, tl, h, -⟩ := lines_head k hk (m + 2)
    simp only [h, markLine_pad]
    exact ⟨'?' :: ' ' :: b, _, rfl, ⟨_, _, rfl, by decide, by decide⟩, rfl, rfl⟩
  | some t =>
    obtain ⟨x, tl, h, hx⟩ := afterKey_head hv m (yamlPad m ++ t)
    have hr := key_read hk ht
    simp only [h]
    refine ⟨t ++ ':' :: x, tl ++ YamlNode.mapLines l m, by simp, ?_, hr.noDash x, ?_⟩
    · obtain ⟨c, r, rfl, h1, h2⟩ := hr.solid
      exact ⟨_, _, rfl, h1, h2⟩
    · rw [hr.key x hx, hr.noQuestion]
      rfl

theorem seq_ends {l : List YamlNode} (hl : SeqOk l) {m : Nat} {rest : List Str} (h : EndsSeq m rest) :
    Ends (m + 1) (YamlNode.seqLines l m ++ rest) := by
  cases l with
  | nil => exact h.ends
  | cons v l =>
    obtain ⟨b, tl, -, h2⟩ := seqLines_head hl.1 l m
    rw [h2]
    exact ends_pad (dash_solid b) (by omega) _

theorem map_endsSeq {l : List (YamlNode × YamlNode)} (hl : MapOk l) {m : Nat} {rest : List Str} (h : Ends m rest) :
    EndsSeq m (YamlNode.mapLines l m ++ rest) := by
  cases l with
  | nil => exact h.seq
  | cons e l =>
    obtain ⟨k, v⟩ := e
    obtain ⟨b, tl, h2, hs, hd, -⟩ := mapLines_head hl.1 hl.2.1 l m
    rw [h2]
    intro x hx
    cases hx
    exact ⟨emptyLine_pad hs, by rw [indentOf_pad hs]; omega, fun _ => by rw [bodyOf_pad hs]; exact hd⟩

/-! ## Reading blocks -/

theorem join_cons (l : Str) (r : List Str) : (yamlJoin (l :: r)).length = l.length + 1 + (yamlJoin r).length := by
  simp [yamlJoin]
  omega

theorem join_append (a b : List Str) : (yamlJoin (a ++ b)).length = (yamlJoin a).length + (yamlJoin b).length := by
  simp [yamlJoin]

theorem pad_length (n : Nat) : (yamlPad n).length = n := List.length_replicate

theorem node_scalar {v : YamlNode} (hv : NodeOk v) {p : Str × List Str} (h : scalarForm v = some p) {f n : Nat} (hn : 1 ≤ n)
    {rest : List Str} (he : Ends n rest) : readNode (f + 1) n (v.lines (n + 1) ++ rest) = some (v.settled, rest) := by
  have hr := scalar_read hv h
  rw [(lines_form h (n + 1) []).1, List.cons_append, readNode, skip_pad hr.solid]
  simp only
  rw [indentOf_pad hr.solid, bodyOf_pad hr.solid, if_neg (by omega), hr.noDash, hr.noQuestion, hr.noKey]
  exact hr.read n rest hn (he.more (by omega))

theorem node_map {l : List (YamlNode × YamlNode)} (hne : l ≠ []) (hl : MapOk l) {f n m : Nat} (hm : n ≤ m) {rest : List Str}
    (h : readMap f m (YamlNode.mapLines l m ++ rest) = some (YamlNode.settledMap l, rest)) :
    readNode (f + 1) n (YamlNode.mapLines l m ++ rest) = some (.map (YamlNode.settledMap l), rest) := by
  cases l with
  | nil => exact absurd rfl hne
  | cons e l =>
    obtain ⟨k, v⟩ := e
    obtain ⟨b, tl, h2, hs, hd, hk⟩ := mapLines_head hl.1 hl.2.1 l m
    rw [h2] at h ⊢
    rw [List.cons_append] at h ⊢
    rw [readNode, skip_pad hs]
    simp only
    rw [indentOf_pad hs, bodyOf_pad hs, if_neg (by omega), hd, hk, h]
    rfl

theorem node_seq {l : List YamlNode} (hne : l ≠ []) (hl : SeqOk l) {f n m : Nat} (hm : n ≤ m) {rest : List Str}
    (h : readSeq f m (YamlNode.seqLines l m ++ rest) = some (YamlNode.settledSeq l, rest)) :
    readNode (f + 1) n (YamlNode.seqLines l m ++ rest) = some (.seq (YamlNode.settledSeq l), rest) := by
  cases l with
  | nil => exact absurd rfl hne
  | cons v l =>
    obtain ⟨b, tl, -, h2⟩ := seqLines_head hl.1 l m
    rw [h2] at h ⊢
    rw [List.cons_append] at h ⊢
    rw [readNode, skip_pad (dash_solid b)]
    simp only
    rw [indentOf_pad (dash_solid b), bodyOf_pad (dash_solid b), if_neg (by omega), show hasMark '-' ('-' :: ' ' :: b) = true from rfl, if_pos rfl, h]
    rfl

theorem after_scalar {v : YamlNode} (hv : NodeOk v) {p : Str × List Str} (h : scalarForm v = some p)
    {node : List Str → Option (YamlNode × List Str)} {seq : List Str → Option (List YamlNode × List Str)} {m : Nat}
    {rest : List Str} (he : Ends (m + 1) rest) (k : Str) :
    ∃ x tl, v.afterKey m k = (k ++ ':' :: x) :: tl ∧ blankNext x = true ∧
      readAfterKey node seq m x (tl ++ rest) = some (v.settled, rest) := by
  have hr := scalar_read hv h
  refine ⟨' ' :: p.1, literalLines (m + 2) p.2, (lines_form h m k).2, rfl, ?_⟩
  have hd : (' ' :: p.1).dropWhile (· == ' ') = p.1 := by
    obtain ⟨c, r, hp, hc, -⟩ := hr.solid
    rw [List.dropWhile_cons_of_pos rfl, hp, List.dropWhile_cons_of_neg (by simpa using hc)]
  unfold readAfterKey
  have hl : lineEnd (' ' :: p.1) = false := by
    unfold lineEnd
    rw [hd]
    obtain ⟨c, r, hp, -, hc⟩ := hr.solid
    rw [hp]
    simp [hc]
  rw [hl, hd]
  exact hr.read (m + 1) rest (by omega) (he.more (by omega))

mutual
theorem yamlNode_read : ∀ (v : YamlNode), NodeOk v → ∀ (f n : Nat) (rest : List Str), 1 ≤ n → Ends n rest →
    3 * (yamlJoin (v.lines (n + 1))).length ≤ f + 3 * (n + 1) → readNode f n (v.lines (n + 1) ++ rest) = some (v.settled, rest)
  | .plain s, hv, f, n, rest, hn, he, hf => by
    rw [(lines_form (v := .plain s) rfl (n + 1) []).1, join_cons, List.length_append, pad_length] at hf
    obtain ⟨f, rfl⟩ : ∃ g, f = g + 1 := ⟨f - 1, by omega⟩
    exact node_scalar hv rfl hn he
  | .free s, hv, f, n, rest, hn, he, hf => by
    rw [(lines_form (v := .free s) rfl (n + 1) []).1, join_cons, List.length_append, pad_length] at hf
    obtain ⟨f, rfl⟩ : ∃ g, f = g + 1 := ⟨f - 1, by omega⟩
    exact node_scalar hv rfl hn he
  | .quoted s, hv, f, n, rest, hn, he, hf => by
    rw [(lines_form (v := .quoted s) rfl (n + 1) []).1, join_cons, List.length_append, pad_length] at hf
    obtain ⟨f, rfl⟩ : ∃ g, f = g + 1 := ⟨f - 1, by omega⟩
    exact node_scalar hv rfl hn he
  | .seq [], hv, f, n, rest, hn, he, hf => by
    rw [(lines_form (v := .seq []) rfl (n + 1) []).1, join_cons, List.length_append, pad_length] at hf
    obtain ⟨f, rfl⟩ : ∃ g, f = g + 1 := ⟨f - 1, by omega⟩
    exact node_scalar hv rfl hn he
  | .map [], hv, f, n, rest, hn, he, hf => by
    rw [(lines_form (v := .map []) rfl (n + 1) []).1, join_cons, List.length_append, pad_length] at hf
    obtain ⟨f, rfl⟩ : ∃ g, f = g + 1 := ⟨f - 1, by omega⟩
    exact node_scalar hv rfl hn he
  | .seq (v :: l), hv, f, n, rest, hn, he, hf => by
    have hf : 3 * (yamlJoin (YamlNode.seqLines (v :: l) (n + 1))).length ≤ f + 3 * (n + 1) := hf
    have hlen : n + 2 ≤ (yamlJoin (YamlNode.seqLines (v :: l) (n + 1))).length := by
      obtain ⟨b, tl, -, h⟩ := seqLines_head hv.1 l (n + 1)
      rw [h, join_cons, List.length_append, pad_length]
      omega
    obtain ⟨f, rfl⟩ : ∃ g, f = g + 1 := ⟨f - 1, by omega⟩
    exact node_seq (by simp) hv (by omega) (seq_read (v :: l) hv f (n + 1) rest (he.more (by omega)).seq (by omega) (by omega))
  | .map (e :: l), hv, f, n, rest, hn, he, hf => by
    have hf : 3 * (yamlJoin (YamlNode.mapLines (e :: l) (n + 1))).length ≤ f + 3 * (n + 1) := hf
    have hlen : n + 3 ≤ (yamlJoin (YamlNode.mapLines (e :: l) (n + 1))).length := by
      obtain ⟨k, v⟩ := e
      obtain ⟨b, tl, h, ⟨c, r, rfl, -, -⟩, -⟩ := mapLines_head hv.1 hv.2.1 l (n + 1)
      rw [h, join_cons, List.length_append, pad_length, List.length_cons]
      omega
    obtain ⟨f, rfl⟩ : ∃ g, f = g + 1 := ⟨f - 1, by omega⟩
    exact node_map (by simp) hv (by omega) (map_read (e :: l) hv f (n + 1) rest (he.more (by omega)) (by omega) (by omega))
  | .tagged t v, hv, _, _, _, _, _, _ => absurd hv id
theorem after_read : ∀ (v : YamlNode), NodeOk v → ∀ (f m : Nat) (k : Str) (rest : List Str), m + 1 ≤ k.length → EndsSeq m rest →
    3 * (yamlJoin (v.afterKey m k)).length ≤ f + 3 * m + 2 → ∃ x tl, v.afterKey m k = (k ++ ':' :: x) :: tl ∧ blankNext x = true ∧
      readAfterKey (readNode f (m + 1)) (readSeq f m) m x (tl ++ rest) = some (v.settled, rest)
  | .plain s, hv, _, _, k, _, _, he, _ => after_scalar hv rfl he.ends k
  | .free s, hv, _, _, k, _, _, he, _ => after_scalar hv rfl he.ends k
  | .quoted s, hv, _, _, k, _, _, he, _ => after_scalar hv rfl he.ends k
  | .seq [], hv, _, _, k, _, _, he, _ => after_scalar hv rfl he.ends k
  | .map [], hv, _, _, k, _, _, he, _ => after_scalar hv rfl he.ends k
  | .seq (v :: l), hv, f, m, k, rest, hk, he, hf => by
    refine ⟨[], YamlNode.seqLines (v :: l) m, rfl, rfl, ?_⟩
    have hf : 3 * (yamlJoin ((k ++ c!":") :: YamlNode.seqLines (v :: l) m)).length ≤ f + 3 * m + 2 := hf
    rw [join_cons, List.length_append] at hf
    simp only [List.length_cons, List.length_nil] at hf
    have ih := seq_read (v :: l) hv f m rest he (by omega) (by omega)
    obtain ⟨b, tl, -, h⟩ := seqLines_head hv.1 l m
    rw [h] at ih ⊢
    unfold readAfterKey
    rw [List.cons_append] at ih ⊢
    rw [show lineEnd [] = true from rfl, if_pos rfl, skip_pad (dash_solid b)]
    simp only
    rw [indentOf_pad (dash_solid b), bodyOf_pad (dash_solid b), if_pos ⟨rfl, rfl⟩, ih]
    rfl
  | .map (e :: l), hv, f, m, k, rest, hk, he, hf => by
    refine ⟨[], YamlNode.mapLines (e :: l) (m + 2), rfl, rfl, ?_⟩
    have hf : 3 * (yamlJoin ((k ++ c!":") :: YamlNode.mapLines (e :: l) (m + 2))).length ≤ f + 3 * m + 2 := hf
    rw [join_cons, List.length_append] at hf
    simp only [List.length_cons, List.length_nil] at hf
    obtain ⟨f, rfl⟩ : ∃ g, f = g + 1 := ⟨f - 1, by omega⟩
    have ih := node_map (n := m + 1) (by simp) hv (by omega) (map_read (e :: l) hv f (m + 2) rest (he.ends.more (by omega)) (by omega) (by omega))
    obtain ⟨k', v⟩ := e
    obtain ⟨b, tl, h, hs, -⟩ := mapLines_head hv.1 hv.2.1 l (m + 2)
    rw [h] at ih ⊢
    unfold readAfterKey
    rw [List.cons_append] at ih ⊢
    rw [show lineEnd [] = true from rfl, if_pos rfl, skip_pad hs]
    simp only
    rw [indentOf_pad hs, if_neg (fun h => by omega), ih]
    rfl
  | .tagged t v, hv, _, _, _, _, _, _, _ => absurd hv id
theorem seq_read : ∀ (l : List YamlNode), SeqOk l → ∀ (f m : Nat) (rest : List Str), EndsSeq m rest → 1 ≤ f →
    3 * (yamlJoin (YamlNode.seqLines l m)).length ≤ f + 3 * m + 1 →
    readSeq f m (YamlNode.seqLines l m ++ rest) = some (YamlNode.settledSeq l, rest)
  | [], _, f, m, rest, he, h1, _ => by
    obtain ⟨f, rfl⟩ : ∃ g, f = g + 1 := ⟨f - 1, by omega⟩
    show readSeq (f + 1) m rest = _
    rw [readSeq, he.ends.skip]
    cases rest with
    | nil => rfl
    | cons l r =>
      obtain ⟨-, h2, h3⟩ := he l rfl
      simp only
      rw [if_neg (fun h => by rw [h3 h.1] at h; exact nomatch h.2), if_neg (by omega)]
      rfl
  | v :: l, hl, f, m, rest, he, _, hf => by
    obtain ⟨b, tl, h2, h3⟩ := seqLines_head hl.1 l m
    have hlen : (yamlJoin (YamlNode.seqLines (v :: l) m)).length = (yamlJoin (v.lines (m + 2))).length + (yamlJoin (YamlNode.seqLines l m)).length := by
      rw [h3, join_cons, join_append, h2, join_cons]
      simp only [List.length_append, pad_length, List.length_cons]
      omega
    have hlen' : m + 3 ≤ (yamlJoin (v.lines (m + 2))).length := by
      rw [h2, join_cons, List.length_append, pad_length]
      omega
    obtain ⟨f, rfl⟩ : ∃ g, f = g + 1 := ⟨f - 1, by omega⟩
    have ih := yamlNode_read v hl.1 f (m + 1) (YamlNode.seqLines l m ++ rest) (by omega) (seq_ends hl.2 he) (by show 3 * (yamlJoin (v.lines (m + 2))).length ≤ _; omega)
    have ih' := seq_read l hl.2 f m rest he (by omega) (by omega)
    rw [h3, List.cons_append, readSeq, skip_pad (dash_solid b)]
    simp only
    rw [indentOf_pad (dash_solid b), bodyOf_pad (dash_solid b), if_pos ⟨rfl, rfl⟩, unmark_pad (by decide), List.append_assoc, ← List.cons_append, ← h2]
    rw [show v.lines (m + 2) = v.lines (m + 1 + 1) from rfl, ih, Option.bind_some]
    simp only
    rw [ih']
    rfl
theorem map_read : ∀ (l : List (YamlNode × YamlNode)), MapOk l → ∀ (f m : Nat) (rest : List Str), Ends m rest → 1 ≤ f →
    3 * (yamlJoin (YamlNode.mapLines l m)).length ≤ f + 3 * m + 1 →
    readMap f m (YamlNode.mapLines l m ++ rest) = some (YamlNode.settledMap l, rest)
  | [], _, f, m, rest, he, h1, _ => by
    obtain ⟨f, rfl⟩ : ∃ g, f = g + 1 := ⟨f - 1, by omega⟩
    show readMap (f + 1) m rest = _
    rw [readMap, he.skip]
    cases rest with
    | nil => rfl
    | cons l r =>
      simp only
      rw [if_pos (he l rfl).2]
      rfl
  | (k, v) :: l, hl, f, m, rest, he, _, hf => by
    have hes := map_endsSeq hl.2.2 he
    cases hk : k.keyText with
    | some t =>
      have hr := key_read hl.1 hk
      have hml : YamlNode.mapLines ((k, v) :: l) m = v.afterKey m (yamlPad m ++ t) ++ YamlNode.mapLines l m := by
        rw [YamlNode.mapLines, hk]
      have hkl : m + 1 ≤ (yamlPad m ++ t).length := by
        obtain ⟨c, r, rfl, -⟩ := hr.solid
        rw [List.length_append, pad_length, List.length_cons]
        omega
      rw [hml, join_append] at hf
      have hal : m + 3 ≤ (yamlJoin (v.afterKey m (yamlPad m ++ t))).length := by
        obtain ⟨x, tl, h, -⟩ := afterKey_head hl.2.1 m (yamlPad m ++ t)
        rw [h, join_cons, List.length_append, List.length_cons]
        omega
      obtain ⟨f, rfl⟩ : ∃ g, f = g + 1 := ⟨f - 1, by omega⟩
      obtain ⟨x, tl, h, hx, ih⟩ := after_read v hl.2.1 f m (yamlPad m ++ t) (YamlNode.mapLines l m ++ rest) hkl hes (by omega)
      have ih' := map_read l hl.2.2 f m rest he (by omega) (by omega)
      have hs : Solid (t ++ ':' :: x) := by
        obtain ⟨c, r, rfl, h1, h2⟩ := hr.solid
        exact ⟨_, _, rfl, h1, h2⟩
      rw [hml, h, List.append_assoc (yamlPad m), List.append_assoc, List.cons_append, readMap, skip_pad hs]
      simp only
      rw [indentOf_pad hs, bodyOf_pad hs, if_neg (by omega), if_neg (by omega), hr.noQuestion, hr.key x hx]
      simp only [Bool.false_eq_true, if_false, Option.bind_some]
      rw [ih, Option.bind_some]
      simp only
      rw [ih']
      rfl
    | none =>
      have hml : YamlNode.mapLines ((k, v) :: l) m =
          markLine m '?' (k.lines (m + 2)) ++ markLine m ':' (v.lines (m + 2)) ++ YamlNode.mapLines l m := by
        rw [YamlNode.mapLines, hk]
      obtain ⟨b, tl, h2, -⟩ := lines_head k hl.1 (m + 2)
      obtain ⟨b', tl', h3, -⟩ := lines_head v hl.2.1 (m + 2)
      have hlen : (yamlJoin (YamlNode.mapLines ((k, v) :: l) m)).length = (yamlJoin (k.lines (m + 2))).length +
          (yamlJoin (v.lines (m + 2))).length + (yamlJoin (YamlNode.mapLines l m)).length := by
        rw [hml, h2, h3, markLine_pad, markLine_pad, join_append, join_append, join_cons, join_cons, join_cons, join_cons]
        simp only [List.length_append, pad_length, List.length_cons]
        omega
      have hkl : m + 3 ≤ (yamlJoin (k.lines (m + 2))).length := by
        rw [h2, join_cons, List.length_append, pad_length]
        omega
      obtain ⟨f, rfl⟩ : ∃ g, f = g + 1 := ⟨f - 1, by omega⟩
      have sc : Solid (':' :: ' ' :: b') := ⟨_, _, rfl, by decide, by decide⟩
      have sq : Solid ('?' :: ' ' :: b) := ⟨_, _, rfl, by decide, by decide⟩
      have ih1 := yamlNode_read k hl.1 f (m + 1) (((yamlPad m ++ ':' :: ' ' :: b') :: tl') ++ (YamlNode.mapLines l m ++ rest)) (by omega)
        (ends_pad sc (by omega) _) (by show 3 * (yamlJoin (k.lines (m + 2))).length ≤ _; omega)
      have ih2 := yamlNode_read v hl.2.1 f (m + 1) (YamlNode.mapLines l m ++ rest) (by omega) hes.ends
        (by show 3 * (yamlJoin (v.lines (m + 2))).length ≤ _; omega)
      have ih' := map_read l hl.2.2 f m rest he (by omega) (by omega)
      have hc : readColon (readNode f (m + 1)) m (((yamlPad m ++ ':' :: ' ' :: b') :: tl') ++ (YamlNode.mapLines l m ++ rest)) =
          some (v.settled, YamlNode.mapLines l m ++ rest) := by
        rw [List.cons_append, readColon, skip_pad sc]
        simp only
        rw [indentOf_pad sc, bodyOf_pad sc, if_pos ⟨rfl, rfl⟩, unmark_pad (by decide), ← List.cons_append, ← h3]
        exact ih2
      rw [hml, h2, h3, markLine_pad, markLine_pad, List.append_assoc, List.append_assoc, List.cons_append, readMap, skip_pad sq]
      simp only
      rw [indentOf_pad sq, bodyOf_pad sq, if_neg (by omega), if_neg (by omega), show hasMark '?' ('?' :: ' ' :: b) = true from rfl, if_pos rfl,
        unmark_pad (by decide), ← List.cons_append, ← h2]
      rw [show k.lines (m + 2) = k.lines (m + 1 + 1) from rfl, ih1, Option.bind_some]
      simp only
      rw [hc, Option.bind_some]
      simp only
      rw [ih']
      rfl
end

/-! ## The line before a document -/

theorem splitKey_parts {b x t : Str} (h : splitKey b = some (x, t)) : b = x ++ ':' :: t := by
  induction b generalizing x with
  | nil => cases h
  | cons c b ih =>
    rw [splitKey] at h
    split at h
    · rename_i hc; cases h; rw [hc.1]; rfl
    · obtain ⟨y, hy, e⟩ := Option.map_eq_some_iff.1 h
      cases e
      exact congrArg (c :: ·) (ih hy)

theorem trimEnd_parts (s : Str) : ∃ g : Str, (∀ c ∈ g, c = ' ') ∧ s = trimEnd s ++ g := by
  refine ⟨(s.reverse.takeWhile (· == ' ')).reverse, fun c hc => ?_, ?_⟩
  · have := List.all_eq_true.1 (List.all_takeWhile (p := (· == ' ')) (l := s.reverse)) c (List.mem_reverse.1 hc)
    simpa using this
  · unfold trimEnd
    rw [← List.reverse_append, List.takeWhile_append_dropWhile, List.reverse_reverse]

theorem marker_trim {u : Str} : (trimEnd ('-' :: '-' :: '-' :: u)).take 3 = c!"---" := by
  obtain ⟨g, hg, e⟩ := trimEnd_parts ('-' :: '-' :: '-' :: u)
  generalize trimEnd ('-' :: '-' :: '-' :: u) = x at e
  have no : ∀ {y : Str}, '-' :: y ≠ g := by
    rintro y rfl
    have := hg '-' (by simp)
    cases this
  match x, e with
  | [], e => exact absurd e no
  | [a], e => exact absurd (List.cons.inj e).2 no
  | [a, b], e => exact absurd (List.cons.inj (List.cons.inj e).2).2 no
  | a :: b :: c :: x, e =>
    have e1 := List.cons.inj e
    have e2 := List.cons.inj e1.2
    have e3 := List.cons.inj e2.2
    rw [← e1.1, ← e2.1, ← e3.1]
    rfl

theorem marker_plain {u : Str} : readPlain (trimEnd ('-' :: '-' :: '-' :: u)) = none := by
  refine if_neg fun h => ?_
  have hd : documentMark (trimEnd ('-' :: '-' :: '-' :: u)) = true := by
    unfold documentMark
    rw [marker_trim]; rfl
  unfold plainAllowed at h
  rw [hd] at h
  simp at h

theorem take_dashes {l : Str} (h : l.take 3 = c!"---") : ∃ u, l = '-' :: '-' :: '-' :: u := by
  match l, h with
  | [], h => cases h
  | [_], h => cases h
  | [_, _], h => cases h
  | a :: b :: c :: u, h =>
    have e1 := List.cons.inj h
    have e2 := List.cons.inj e1.2
    have e3 := List.cons.inj e2.2
    exact ⟨u, by rw [e1.1, e2.1, e3.1]⟩

theorem marker_key {u : Str} : scanKey ('-' :: '-' :: '-' :: u) = none := by
  refine scanKey_none ?_
  rw [keyForm_default (fun e => by cases e) (fun e => by cases e)]
  cases hx : splitKey ('-' :: '-' :: '-' :: u) with
  | none => rfl
  | some y =>
    obtain ⟨x, t⟩ := y
    have e := splitKey_parts hx
    show (readPlain (trimEnd x)).map _ = none
    match x, e with
    | [], e => cases (List.cons.inj e).1
    | [_], e => cases (List.cons.inj (List.cons.inj e).2).1
    | [_, _], e => cases (List.cons.inj (List.cons.inj (List.cons.inj e).2).2).1
    | a :: b :: c :: x, e =>
      have e1 := List.cons.inj e
      have e2 := List.cons.inj e1.2
      have e3 := List.cons.inj e2.2
      rw [← e1.1, ← e2.1, ← e3.1, marker_plain]
      rfl

theorem marker_noMap {f : Nat} {ls r rest : List Str} {l : Str} {m : List (YamlNode × YamlNode)} (h : ls.dropWhile emptyLine = l :: r)
    (hl : startsDocument l = true) : readNode f 0 ls ≠ some (.map m, rest) := by
  unfold startsDocument at hl
  rw [Bool.and_eq_true, beq_iff_eq] at hl
  obtain ⟨u, rfl⟩ := take_dashes hl.1
  cases f with
  | zero => rw [readNode]; exact fun e => nomatch e
  | succ f =>
    rw [readNode, h]
    show ¬ (if indentOf ('-' :: '-' :: '-' :: u) < 0 then _ else if hasMark '-' ('-' :: '-' :: '-' :: u) = true then _ else
      if (hasMark '?' ('-' :: '-' :: '-' :: u) || (scanKey ('-' :: '-' :: '-' :: u)).isSome) = true then _ else _) = _
    rw [if_neg (Nat.not_lt_zero _), if_neg (show ¬ hasMark '-' ('-' :: '-' :: '-' :: u) = true from fun e => nomatch e), marker_key,
      if_neg (show ¬ (hasMark '?' ('-' :: '-' :: '-' :: u) || (none : Option (YamlNode × Str)).isSome) = true from fun e => nomatch e)]
    intro e
    obtain ⟨v, hv, e⟩ := Option.map_eq_some_iff.1 (show (readPlain (trimEnd (beforeComment ('-' :: '-' :: '-' :: u)))).map _ = _ from e)
    obtain ⟨-, rfl⟩ := ifSome hv
    cases e

theorem afterMarker_of {f : Nat} {ls rest : List Str} {m : List (YamlNode × YamlNode)} (h : readNode f 0 ls = some (.map m, rest)) :
    afterMarker ls = ls := by
  unfold afterMarker
  cases hd : ls.dropWhile emptyLine with
  | nil => rfl
  | cons l r =>
    refine if_neg fun hl => ?_
    exact marker_noMap hd hl h

/-! ## Line breaks -/

theorem yamlBreaks_id {s : Str} (h : '\r' ∉ s) : yamlBreaks s = s := by
  induction s with
  | nil => rfl
  | cons c s ih =>
    have hc : c ≠ '\r' := fun e => h (by simp [e])
    rw [yamlBreaks, if_neg hc, ih fun hm => h (by simp [hm])]
    rintro r' e
    cases e
    exact absurd rfl hc

theorem ended_join (ls : List Str) : endedText (yamlJoin ls) = true := by
  unfold endedText
  rcases List.eq_nil_or_concat ls with rfl | ⟨a, b, rfl⟩
  · rfl
  · have : yamlJoin (a ++ [b]) = (yamlJoin a ++ b) ++ ['\n'] := by simp [yamlJoin]
    rw [List.concat_eq_append, this, List.getLast?_concat]
    rfl

/-! ## Equality -/

mutual
theorem same_iff : ∀ v w : YamlNode, v.same w = true ↔ v = w
  | .plain s, w => by cases w <;> simp [YamlNode.same]
  | .free s, w => by cases w <;> simp [YamlNode.same]
  | .quoted s, w => by cases w <;> simp [YamlNode.same]
  | .seq l, w => by cases w <;> simp [YamlNode.same, sameSeq_iff l]
  | .map l, w => by cases w <;> simp [YamlNode.same, sameMap_iff l]
  | .tagged t v, w => by cases w <;> simp [YamlNode.same, same_iff v]
theorem sameSeq_iff : ∀ l r : List YamlNode, YamlNode.sameSeq l r = true ↔ l = r
  | [], r => by cases r <;> simp [YamlNode.sameSeq]
  | v :: l, r => by cases r <;> simp [YamlNode.sameSeq, same_iff v, sameSeq_iff l]
theorem sameMap_iff : ∀ l r : List (YamlNode × YamlNode), YamlNode.sameMap l r = true ↔ l = r
  | [], r => by cases r <;> simp [YamlNode.sameMap]
  | (k, v) :: l, r => by
    cases r with
    | nil => simp [YamlNode.sameMap]
    | cons e r =>
      obtain ⟨j, w⟩ := e
      simp [YamlNode.sameMap, same_iff k, same_iff v, sameMap_iff l]
end

end Rops
