import Verif.Lemmas.TomlLexemes
import Verif.Lemmas.TomlBuild
/-!
# The grammar of TOML: values and documents
-/

namespace Rops
open Spec

/-! ## Scalars -/

theorem tomlScalar_inv {S : TomlScalars} {x : Str} {v : Toml} (hs : TomlDateShape x) (h : tomlScalar S x = some v) (d : Nat) :
    TomlSyntax S d (.value v) x := by
  unfold tomlScalar at h
  split at h
  · rename_i hx; cases h; rw [hx]; exact .yes
  · rename_i h1
    split at h
    · rename_i hx; cases h; rw [hx]; exact .no
    · rename_i h2
      split at h
      · rename_i n hn; cases h; exact .int (tomlInteger_iff.1 hn)
      · rename_i hn
        split at h
        · rename_i f hf; cases h; exact .float (tomlReadFloat_iff.1 hf)
        · rename_i hf
          rw [Option.map_eq_some_iff] at h
          obtain ⟨t, ht, rfl⟩ := h
          refine .date ⟨ht, hs, fun i hi => ?_, fun f h => ?_, h1, h2⟩
          · rw [tomlInteger_iff.2 hi] at hn; cases hn
          · rw [tomlReadFloat_iff.2 h] at hf; cases hf

theorem true_not_int {n : Int} {x : Str} (h : TomlIntText n x) : x ≠ c!"true" ∧ x ≠ c!"false" := by
  have key : ∃ c r, x = c :: r ∧ (c.isDigit = true ∨ c = '+' ∨ c = '-') := by
    cases h with
    | plain hs hd _ =>
      obtain ⟨c, r, rfl, hc, _⟩ := dec_head hd
      rcases hs with rfl | rfl
      · exact ⟨_, _, rfl, .inl hc⟩
      · exact ⟨_, _, rfl, .inr (.inl rfl)⟩
    | minus => exact ⟨_, _, rfl, .inr (.inr rfl)⟩
    | base => exact ⟨_, _, rfl, .inl (by decide)⟩
  obtain ⟨c, r, rfl, hc⟩ := key
  constructor
  · intro h; rw [(List.cons.inj h).1] at hc; exact absurd hc (by decide)
  · intro h; rw [(List.cons.inj h).1] at hc; exact absurd hc (by decide)

theorem true_not_float {S : TomlScalars} {t x : Str} (h : TomlFloatText S t x) : x ≠ c!"true" ∧ x ≠ c!"false" := by
  have key : ∃ c r, x = c :: r ∧ (c.isDigit = true ∨ c = '+' ∨ c = '-' ∨ c = 'i' ∨ c = 'n') := by
    have hsg : ∀ {kept sg : Str}, TomlSignText kept sg → sg = [] ∨ sg = ['+'] ∨ sg = ['-'] := by
      rintro kept sg (⟨_, h | h⟩ | ⟨_, h⟩)
      · exact .inl h
      · exact .inr (.inl h)
      · exact .inr (.inr h)
    cases h with
    | number hs hd _ =>
      obtain ⟨c, r, rfl, hc, _⟩ := dec_head hd
      rcases hsg hs with rfl | rfl | rfl
      · exact ⟨_, _, rfl, .inl hc⟩
      · exact ⟨_, _, rfl, .inr (.inl rfl)⟩
      · exact ⟨_, _, rfl, .inr (.inr (.inl rfl))⟩
    | inf hs | nan hs =>
      rcases hsg hs with rfl | rfl | rfl
      · exact ⟨_, _, rfl, by decide⟩
      · exact ⟨_, _, rfl, .inr (.inl rfl)⟩
      · exact ⟨_, _, rfl, .inr (.inr (.inl rfl))⟩
  obtain ⟨c, r, rfl, hc⟩ := key
  constructor
  · intro h; rw [(List.cons.inj h).1] at hc; exact absurd hc (by decide)
  · intro h; rw [(List.cons.inj h).1] at hc; exact absurd hc (by decide)

theorem tomlScalar_int {S : TomlScalars} {i : Int64} {x : Str} (h : TomlIntText i.toInt x) : tomlScalar S x = some (.int i) := by
  obtain ⟨h1, h2⟩ := true_not_int h
  unfold tomlScalar
  rw [if_neg h1, if_neg h2, tomlInteger_iff.2 h]

theorem tomlScalar_float {S : TomlScalars} {t x : Str} (h : TomlFloatText S t x) : tomlScalar S x = some (.float t) := by
  obtain ⟨h1, h2⟩ := true_not_float h
  have h3 : tomlInteger x = none := by
    cases hi : tomlInteger x with
    | none => rfl
    | some i => exact absurd h fun h => intText_not_float (tomlInteger_iff.1 hi) h
  unfold tomlScalar
  rw [if_neg h1, if_neg h2, h3]
  simp only
  rw [tomlReadFloat_iff.2 h]

theorem tomlScalar_date {S : TomlScalars} {t x : Str} (h : TomlDateText S t x) : tomlScalar S x = some (.datetime t) := by
  have h3 : tomlInteger x = none := by
    cases hi : tomlInteger x with
    | none => rfl
    | some i => exact absurd (tomlInteger_iff.1 hi) (h.noInt i)
  have h4 : tomlReadFloat S x = none := by
    cases hi : tomlReadFloat S x with
    | none => rfl
    | some i => exact absurd (tomlReadFloat_iff.1 hi) (h.noFloat i)
  unfold tomlScalar
  rw [if_neg h.noBool.1, if_neg h.noBool.2, h3]
  simp only
  rw [h4]
  simp only
  rw [h.read]
  rfl

theorem dateShape_head {x : Str} (h : TomlDateShape x) : ∃ c r, x = c :: r ∧ tomlTokenChar c = true := by
  rcases h with ⟨h0, h⟩ | ⟨a, y, z, rfl, hl, ha, _⟩
  · cases x with
    | nil => exact absurd rfl h0
    | cons c r => exact ⟨c, r, rfl, tomlTokenChar_iff.2 (h c (.head _))⟩
  · cases a with
    | nil => simp at hl
    | cons c r => exact ⟨c, _, rfl, tomlTokenChar_iff.2 (ha c (.head _))⟩

theorem tomlValue_word {S : TomlScalars} {x rest : Str} {v : Toml} (hs : TomlDateShape x) (h : tomlScalar S x = some v) (hr : AfterValue rest)
    (n d : Nat) : tomlValue S (n + 1) d (x ++ rest) = some (v, rest) := by
  have ht := tomlToken_of hs hr
  obtain ⟨c, r, rfl, hc⟩ := dateShape_head hs
  rw [List.cons_append] at ht ⊢
  rw [tomlValue]
  · rw [if_neg (by rintro (rfl | rfl) <;> exact absurd hc (by decide)), ht]
    simp only [h]
  · rintro rfl; exact absurd hc (by decide)
  · rintro rfl; exact absurd hc (by decide)

/-! ## What follows values -/

theorem afterValue_list {rest : Str} (h : ∀ c r, rest = c :: r → c ∈ [',', ']', '}', '#', '\n', '\r', '\t']) : AfterValue rest := by
  cases rest with
  | nil => exact ⟨begins_nil _, ⟨by simp [NotHead], by simp [NotHead]⟩, fun _ _ h => nomatch h⟩
  | cons c r =>
    have := h c r rfl
    simp only [List.mem_cons, List.not_mem_nil, or_false] at this
    rcases this with rfl | rfl | rfl | rfl | rfl | rfl | rfl <;> exact afterValue_char r (by decide) (by decide) (by decide) (by decide)

theorem afterValue_space {rest : Str} (h : ∀ c r, rest = c :: r → c.isDigit = false) : AfterValue (' ' :: rest) where
  token := begins_cons.2 (by decide)
  text := ⟨fun h => absurd (Option.some.inj h) (by decide), fun h => absurd (Option.some.inj h) (by decide)⟩
  day := fun c r he => h c r (List.cons.inj he).2

theorem afterValue_notDigit {rest : Str} (h : AfterValue rest) : ∀ c r, rest = c :: r → c.isDigit = false := by
  intro c r he
  have := h.token c (by rw [he]; rfl)
  rw [Bool.eq_false_iff]
  intro hd
  rw [digit_token hd] at this
  cases this

theorem afterValue_ws {w rest : Str} (hw : TomlWs w) (hr : AfterValue rest) : AfterValue (w ++ rest) := by
  induction w with
  | nil => exact hr
  | cons c w ih =>
    rcases hw c (.head _) with rfl | rfl
    · exact afterValue_space (afterValue_notDigit (ih fun c hc => hw c (.tail _ hc)))
    · exact afterValue_list fun c r h => by rw [← (List.cons.inj h).1]; decide

theorem afterValue_nl {e : Str} (he : TomlNl e) (rest : Str) : AfterValue (e ++ rest) := by
  rcases he with rfl | rfl
  · exact afterValue_list fun c r h => by rw [← (List.cons.inj h).1]; decide
  · exact afterValue_list fun c r h => by rw [← (List.cons.inj h).1]; decide

theorem afterValue_between {g rest : Str} (hg : TomlBetween g) (hr : AfterValue rest) : AfterValue (g ++ rest) := by
  induction hg with
  | nil => exact hr
  | @ws c x hc _ ih =>
    rcases hc with rfl | rfl
    · exact afterValue_space (afterValue_notDigit ih)
    · exact afterValue_list fun c r h => by rw [← (List.cons.inj h).1]; decide
  | nl he _ _ => rw [List.append_assoc]; exact afterValue_nl he _
  | remark ht _ _ _ =>
    obtain ⟨u, rfl, _⟩ := ht
    exact afterValue_list fun c r h => by rw [← (List.cons.inj h).1]; decide

theorem afterValue_tail {z rest : Str} (hz : TomlTail z) (hr : AfterValue rest) : AfterValue (z ++ rest) := by
  obtain ⟨w, t, rfl, hw, rfl | ht⟩ := hz
  · rw [List.append_nil]; exact afterValue_ws hw hr
  · rw [List.append_assoc]
    refine afterValue_ws hw ?_
    obtain ⟨u, rfl, _⟩ := ht
    exact afterValue_list fun c r h => by rw [← (List.cons.inj h).1]; decide

theorem afterValue_nil : AfterValue [] := afterValue_list fun _ _ h => nomatch h

/-! ## Values are read -/

theorem syntax_head {S : TomlScalars} {d : Nat} {v : Toml} {x : Str} (h : TomlSyntax S d (.value v) x) :
    ∃ c r, x = c :: r ∧ valueHead c = true := by
  have tok : ∀ {x : Str}, TomlDateShape x → ∃ c r, x = c :: r ∧ valueHead c = true := by
    intro x h
    obtain ⟨c, r, rfl, hc⟩ := dateShape_head h
    exact ⟨c, r, rfl, by unfold valueHead; rw [hc]; rfl⟩
  cases h with
  | text h =>
    obtain ⟨c, y, rfl, rfl | rfl⟩ := quoted_head h
    · exact ⟨_, _, rfl, by decide⟩
    · exact ⟨_, _, rfl, by decide⟩
  | yes => exact ⟨_, _, rfl, by decide⟩
  | no => exact ⟨_, _, rfl, by decide⟩
  | int h => exact tok (intText_shape h)
  | float h => exact tok (floatText_shape h)
  | date h => exact tok h.shape
  | array => exact ⟨_, _, rfl, by decide⟩
  | empty => exact ⟨_, _, rfl, by decide⟩
  | table => exact ⟨_, _, rfl, by decide⟩

theorem word_true : TomlDateShape c!"true" := .inl ⟨by simp, fun c hc => tomlTokenChar_iff.1 (by
  simp only [List.mem_cons, List.not_mem_nil, or_false] at hc
  rcases hc with rfl | rfl | rfl | rfl <;> decide)⟩

theorem word_false : TomlDateShape c!"false" := .inl ⟨by simp, fun c hc => tomlTokenChar_iff.1 (by
  simp only [List.mem_cons, List.not_mem_nil, or_false] at hc
  rcases hc with rfl | rfl | rfl | rfl | rfl <;> decide)⟩

theorem valueHead_gap {c : Char} (h : valueHead c = true) : gapEnd c = true := by
  obtain ⟨h1, h2, h3, h4, _⟩ := valueHead_space h
  unfold gapEnd
  simp [h1, h2, h3, h4]

/-- What the reader does with a text for a node; white space before entries is left out. -/
def NodeRead (S : TomlScalars) (d : Nat) : TomlNode → Str → Prop
  | .value v, x => ∀ n rest, x.length < n → AfterValue rest → tomlValue S n d (x ++ rest) = some (v, rest)
  | .elems l, x => ∀ n rest, x.length + 1 < n → tomlElems S n d (x ++ ']' :: rest) = some (l, rest)
  | .pairs l, x => ∀ n rest, x.length + 1 < n → tomlPairs S n d (x ++ '}' :: rest) = some (l, rest) ∧
      tomlPairs S n d ((x ++ '}' :: rest).dropWhile tomlSpace) = some (l, rest) ∧
      ∃ c r, (x ++ '}' :: rest).dropWhile tomlSpace = c :: r ∧ PartHead c

theorem tomlElems_start {S : TomlScalars} {n d : Nat} {g x r : Str} (hg : TomlBetween g) {c : Char} {y : Str} (hx : x = c :: y)
    (hc : valueHead c = true) : tomlElems S (n + 1) d (g ++ (x ++ r)) = match tomlValue S n d (x ++ r) with
      | none => none
      | some (t, r) => match tomlGap (r.length + 1) r with
        | some (',' :: r) => match tomlElems S n d r with
          | some (l, r) => some (t :: l, r)
          | none => none
        | some (']' :: r) => some ([t], r)
        | _ => none := by
  have hg' := tomlGap_of hg (r := y ++ r) (valueHead_gap hc) (n := (g ++ c :: (y ++ r)).length + 1) (by rw [List.length_append]; omega)
  subst hx
  rw [List.cons_append, tomlElems, hg']
  obtain ⟨_, _, _, _, h5, _⟩ := valueHead_space hc
  split
  · rename_i h; cases h
  · rename_i h
    exact absurd (List.cons.inj (Option.some.inj h)).1 h5
  · rename_i h
    cases h
    rfl

theorem keyEnd_equals (r : Str) : KeyEnd ('=' :: r) := ⟨_, _, rfl, .inl rfl⟩

theorem head_space {c : Char} (h : valueHead c = true) (r : Str) : NotBegins tomlSpace (c :: r) := begins_cons.2 (valueHead_space h).1

theorem tomlPairs_one {S : TomlScalars} {n d : Nat} {p : List Str} {k y w x w' r : Str} {t : Toml} (hk : TomlKeyText (p ++ [k]) y)
    (hl : p.length + 1 < S.limit) (hw : TomlWs w) (hv : TomlSyntax S d (.value t) x) (hw' : TomlWs w') (hr : NotBegins tomlSpace r)
    (h : tomlValue S n d (x ++ (w' ++ r)) = some (t, w' ++ r)) :
    tomlPairs S (n + 1) d (y ++ '=' :: (w ++ (x ++ (w' ++ r)))) = match (generalizing := false) r with
      | ',' :: r => match tomlPairs S n d r with
        | some (l, r) => some (.entry p k t :: l, r)
        | none => none
      | '}' :: r => some ([.entry p k t], r)
      | _ => none := by
  obtain ⟨c, z, hx, hc⟩ := syntax_head hv
  have h1 : (w ++ (x ++ (w' ++ r))).dropWhile tomlSpace = x ++ (w' ++ r) := dropWhile_ws hw (by rw [hx]; exact head_space hc _)
  rw [tomlPairs, tomlReadKey_of hk (by simpa using hl) (keyEnd_equals _)]
  simp only [h1, h, dropWhile_ws hw' hr, List.dropLast_concat, List.getLast?_concat, Option.getD_some]
  rfl

theorem node_read {S : TomlScalars} {d : Nat} {N : TomlNode} {x : Str} (h : TomlSyntax S d N x) : NodeRead S d N x := by
  induction h with
  | @text d s x h =>
    intro n rest hn hr
    cases n with
    | zero => omega
    | succ n =>
      have ht := tomlText_quoted h hr.text.double hr.text.single
      obtain ⟨c, y, rfl, hc⟩ := quoted_head h
      rw [List.cons_append] at ht ⊢
      rw [tomlValue]
      · rw [if_pos hc, ht]
      · rintro rfl; exact absurd hc (by decide)
      · rintro rfl; exact absurd hc (by decide)
  | yes =>
    intro n rest hn hr
    cases n with
    | zero => omega
    | succ n => exact tomlValue_word word_true rfl hr n _
  | no =>
    intro n rest hn hr
    cases n with
    | zero => omega
    | succ n => exact tomlValue_word word_false rfl hr n _
  | int h =>
    intro n rest hn hr
    cases n with
    | zero => omega
    | succ n => exact tomlValue_word (intText_shape h) (tomlScalar_int h) hr n _
  | float h =>
    intro n rest hn hr
    cases n with
    | zero => omega
    | succ n => exact tomlValue_word (floatText_shape h) (tomlScalar_float h) hr n _
  | date h =>
    intro n rest hn hr
    cases n with
    | zero => omega
    | succ n => exact tomlValue_word h.shape (tomlScalar_date h) hr n _
  | @array d l x hl _ ih =>
    intro n rest hn hr
    cases n with
    | zero => omega
    | succ n =>
      rw [List.cons_append, List.append_assoc, tomlValue, if_pos hl]
      have := ih n rest (by simp at hn; omega)
      rw [List.cons_append, List.nil_append, this]
  | @empty d w hl hw =>
    intro n rest hn hr
    cases n with
    | zero => omega
    | succ n =>
      rw [List.cons_append, List.append_assoc, tomlValue, if_pos hl]
      have := dropWhile_ws hw (r := '}' :: rest) (begins_cons.2 (by decide))
      rw [List.cons_append, List.nil_append, this]
      rfl
  | @table d l t x hl _ ht ih =>
    intro n rest hn hr
    cases n with
    | zero => omega
    | succ n =>
      rw [List.cons_append, List.append_assoc, tomlValue, if_pos hl]
      obtain ⟨_, h2, c, r, h3, h4⟩ := ih n rest (by simp at hn; omega)
      rw [List.cons_append, List.nil_append]
      rw [h3] at h2
      rw [h3]
      split
      · rename_i h
        rw [(List.cons.inj h).1] at h4
        exact absurd rfl (partHead_ne h4 (d := '}') (by decide))
      · rw [h2]
        simp only
        rw [ht]
  | @none d g hg =>
    intro n rest hn
    cases n with
    | zero => omega
    | succ n =>
      rw [tomlElems, tomlGap_of hg (by decide) (by rw [List.length_append]; omega)]
      rfl
  | @last d t g x g' hg hv hg' ih =>
    intro n rest hn
    cases n with
    | zero => omega
    | succ n =>
      obtain ⟨c, y, hx, hc⟩ := syntax_head hv
      have h1 := ih n (g' ++ ']' :: rest) (by simp at hn; omega) (afterValue_between hg' (afterValue_char _ (by decide) (by decide) (by decide) (by decide)))
      rw [List.append_assoc, List.append_assoc, tomlElems_start hg hx hc, h1]
      simp only
      rw [tomlGap_of hg' (by decide) (by rw [List.length_append]; omega)]
      rfl
  | @more d t l g x g' y hg hv hg' _ ih ih' =>
    intro n rest hn
    cases n with
    | zero => omega
    | succ n =>
      obtain ⟨c, z, hx, hc⟩ := syntax_head hv
      have h1 := ih n (g' ++ ',' :: (y ++ ']' :: rest)) (by simp at hn; omega)
        (afterValue_between hg' (afterValue_char _ (by decide) (by decide) (by decide) (by decide)))
      have h2 := ih' n rest (by simp at hn; omega)
      simp only [List.append_assoc, List.cons_append]
      rw [tomlElems_start hg hx hc, h1]
      simp only
      rw [tomlGap_of hg' (by decide) (by rw [List.length_append]; omega)]
      simp only [h2]
  | @pair d p k y w x w' t hk hl hw hv hw' ih =>
    intro n rest hn
    cases n with
    | zero => omega
    | succ n =>
      have h1 := ih n (w' ++ '}' :: rest) (by simp at hn; omega) (afterValue_ws hw' (afterValue_char _ (by decide) (by decide) (by decide) (by decide)))
      have hb : NotBegins tomlSpace ('}' :: rest) := begins_cons.2 (by decide)
      obtain ⟨y', hd, hk', hle, c, r, hc, hh⟩ := keyText_dropWhile hk ('=' :: (w ++ (x ++ (w' ++ '}' :: rest))))
      simp only [List.append_assoc, List.cons_append]
      rw [hd]
      refine ⟨?_, ?_, c, _, by rw [hc]; rfl, hh⟩
      · rw [tomlPairs_one hk hl hw hv hw' hb h1]
        rfl
      · rw [tomlPairs_one hk' hl hw hv hw' hb h1]
        rfl
  | @pairs d p k y w x w' z t l hk hl hw hv hw' _ ih ih' =>
    intro n rest hn
    cases n with
    | zero => omega
    | succ n =>
      have h1 := ih n (w' ++ ',' :: (z ++ '}' :: rest)) (by simp at hn; omega)
        (afterValue_ws hw' (afterValue_char _ (by decide) (by decide) (by decide) (by decide)))
      obtain ⟨h2, _⟩ := ih' n rest (by simp at hn; omega)
      have hb : NotBegins tomlSpace (',' :: (z ++ '}' :: rest)) := begins_cons.2 (by decide)
      obtain ⟨y', hd, hk', hle, c, r, hc, hh⟩ := keyText_dropWhile hk ('=' :: (w ++ (x ++ (w' ++ ',' :: (z ++ '}' :: rest)))))
      simp only [List.append_assoc, List.cons_append]
      rw [hd]
      refine ⟨?_, ?_, c, _, by rw [hc]; rfl, hh⟩
      · rw [tomlPairs_one hk hl hw hv hw' hb h1]
        simp only [h2]
      · rw [tomlPairs_one hk' hl hw hv hw' hb h1]
        simp only [h2]

/-! ## What is read is a value -/

theorem pairs_ws {S : TomlScalars} {d : Nat} {l : List TomlStmt} {x w : Str} (h : TomlSyntax S d (.pairs l) x) (hw : TomlWs w) :
    TomlSyntax S d (.pairs l) (w ++ x) := by
  cases h with
  | pair h1 h2 h3 h4 h5 => rw [← List.append_assoc]; exact .pair (keyText_ws h1 hw) h2 h3 h4 h5
  | pairs h1 h2 h3 h4 h5 h6 => rw [← List.append_assoc]; exact .pairs (keyText_ws h1 hw) h2 h3 h4 h5 h6

/-- What the reader has read, with so many steps. -/
def NodesInv (S : TomlScalars) (n : Nat) : Prop :=
  (∀ d s v r, tomlValue S n d s = some (v, r) → ∃ x, s = x ++ r ∧ TomlSyntax S d (.value v) x) ∧
  (∀ d s l r, tomlElems S n d s = some (l, r) → ∃ x, s = x ++ ']' :: r ∧ TomlSyntax S d (.elems l) x) ∧
  (∀ d s l r, tomlPairs S n d s = some (l, r) → ∃ x, s = x ++ '}' :: r ∧ TomlSyntax S d (.pairs l) x)

theorem nodes_inv {S : TomlScalars} (hS : S.date [] = none) (n : Nat) : NodesInv S n := by
  induction n with
  | zero =>
    refine ⟨fun d s v r h => ?_, fun d s v r h => ?_, fun d s v r h => ?_⟩
    · rw [tomlValue] at h; cases h
    · rw [tomlElems] at h; cases h
    · rw [tomlPairs] at h; cases h
  | succ n ih =>
    obtain ⟨ih1, ih2, ih3⟩ := ih
    refine ⟨fun d s v r h => ?_, fun d s v r h => ?_, fun d s v r h => ?_⟩
    · rw [tomlValue.eq_def] at h
      simp only at h
      split at h
      · split at h
        · rename_i hl
          split at h
          · cases h
            rename_i l r' he
            obtain ⟨x, rfl, hx⟩ := ih2 _ _ _ _ he
            exact ⟨'[' :: (x ++ [']']), by simp, .array hl hx⟩
          · cases h
        · cases h
      · rename_i r0
        split at h
        · rename_i hl
          have hs := space_split r0
          split at h
          · cases h
            rename_i r' hr
            rw [hr] at hs
            exact ⟨'{' :: (r0.takeWhile tomlSpace ++ ['}']), by simpa using hs, .empty hl (takeWhile_ws r0)⟩
          · split at h
            · rename_i l r' hp
              split at h
              · cases h
                rename_i ht
                obtain ⟨x, h1, hx⟩ := ih3 _ _ _ _ hp
                rw [h1] at hs
                exact ⟨'{' :: ((r0.takeWhile tomlSpace ++ x) ++ ['}']), by simpa using hs, .table hl (pairs_ws hx (takeWhile_ws r0)) ht⟩
              · cases h
            · cases h
        · cases h
      · split at h
        · split at h
          · cases h
            rename_i ht
            obtain ⟨x, hs, hx⟩ := tomlText_inv ht
            exact ⟨x, hs, .text hx⟩
          · cases h
        · split at h
          · cases h
            rename_i c r0 _ _ _ v' ht
            obtain ⟨h1, h2⟩ := tomlToken_inv (c :: r0)
            rcases h2 with h2 | h2
            · rw [h2] at ht
              have : tomlScalar S [] = none := by
                have h0 : tomlScalar S [] = (S.date []).map .datetime := rfl
                rw [h0, hS]
                rfl
              rw [this] at ht
              cases ht
            · exact ⟨_, h1, tomlScalar_inv h2 ht d⟩
          · cases h
      · cases h
    · rw [tomlElems] at h
      split at h
      · cases h
      · cases h
        rename_i hg
        obtain ⟨g, hs, hb⟩ := tomlGap_inv hg
        exact ⟨g, hs, .none hb⟩
      · rename_i r1 _ hg
        obtain ⟨g, hs, hb⟩ := tomlGap_inv hg
        split at h
        · cases h
        · rename_i t r2 hv
          obtain ⟨x, rfl, hx⟩ := ih1 _ _ _ _ hv
          split at h
          · rename_i r3 hg'
            obtain ⟨g', rfl, hb'⟩ := tomlGap_inv hg'
            split at h
            · cases h
              rename_i l r4 he
              obtain ⟨y, rfl, hy⟩ := ih2 _ _ _ _ he
              exact ⟨g ++ (x ++ (g' ++ ',' :: y)), by simpa using hs, .more hb hx hb' hy⟩
            · cases h
          · cases h
            rename_i hg'
            obtain ⟨g', rfl, hb'⟩ := tomlGap_inv hg'
            exact ⟨g ++ (x ++ g'), by simpa using hs, .last hb hx hb'⟩
          · cases h
    · rw [tomlPairs] at h
      split at h
      · rename_i p r1 hk
        obtain ⟨y, hs, hy, hl⟩ := tomlReadKey_inv hk
        have hp := path_last (keyText_ne hy)
        have hl' : p.dropLast.length + 1 < S.limit := by
          rw [hp] at hl
          simpa using hl
        rw [hp] at hy
        have hsp := space_split r1
        split at h
        · cases h
        · rename_i t r2 hv
          obtain ⟨x, hx0, hx⟩ := ih1 _ _ _ _ hv
          have hsp2 := space_split r2
          rw [hx0, hsp2] at hsp
          rw [hsp] at hs
          split at h
          · rename_i r3 hd
            rw [hd] at hs
            split at h
            · cases h
              rename_i l r4 he
              obtain ⟨z, rfl, hz⟩ := ih3 _ _ _ _ he
              exact ⟨_, by simpa using hs, .pairs hy hl' (takeWhile_ws r1) hx (takeWhile_ws r2) hz⟩
            · cases h
          · cases h
            rename_i hd
            rw [hd] at hs
            exact ⟨_, by simpa using hs, .pair hy hl' (takeWhile_ws r1) hx (takeWhile_ws r2)⟩
          · cases h
      · cases h

/-! ## Statements -/

theorem keyEnd_bracket (r : Str) : KeyEnd (']' :: r) := ⟨_, _, rfl, .inr rfl⟩

/-- What is after a statement: the end of the text, or of the line. -/
inductive StmtEnd : Str → Str → Prop
  | last {z : Str} : TomlTail z → StmtEnd z []
  | line {z e y : Str} : TomlTail z → TomlNl e → StmtEnd (z ++ (e ++ y)) y

theorem stmtEnd_read {s r : Str} (h : StmtEnd s r) : tomlLineEnd s = some r := by
  cases h with
  | last h => exact tomlLineEnd_last h
  | line h he => exact tomlLineEnd_nl h he

theorem stmtEnd_inv {s r : Str} (h : tomlLineEnd s = some r) : StmtEnd s r := by
  rcases tomlLineEnd_inv h with ⟨rfl, ht⟩ | ⟨z, e, rfl, h1, h2⟩
  · exact .last ht
  · exact .line h1 h2

theorem stmtEnd_after {s r : Str} (h : StmtEnd s r) : AfterValue s := by
  cases h with
  | last h => simpa using afterValue_tail h afterValue_nil
  | line h he => exact afterValue_tail h (afterValue_nl he _)

theorem stmtEnd_length {s r : Str} (h : StmtEnd s r) : r.length ≤ s.length := by
  cases h with
  | last => simp
  | line => simp only [List.length_append]; omega

theorem tomlHeader_of {S : TomlScalars} {close : Str} (hc : close = c!"]" ∨ close = c!"]]") {p : List Str} {x : Str} (hk : TomlKeyText p x)
    (hl : p.length < S.limit) {s r : Str} (hr : StmtEnd s r) : tomlHeader S close (x ++ (close ++ s)) = some (p, r) := by
  have he : KeyEnd (close ++ s) := by rcases hc with rfl | rfl <;> exact keyEnd_bracket _
  unfold tomlHeader
  rw [tomlReadKey_of hk hl he]
  simp only
  rw [stripPrefix_append]
  simp only
  rw [stmtEnd_read hr]

theorem tomlEntry_of {S : TomlScalars} {p : List Str} {k y w x s r : Str} {t : Toml} (hk : TomlKeyText (p ++ [k]) y) (hl : p.length + 1 < S.limit)
    (hw : TomlWs w) (hv : TomlSyntax S 0 (.value t) x) (hr : StmtEnd s r) :
    tomlEntry S (y ++ '=' :: (w ++ (x ++ s))) = some (.entry p k t, r) := by
  obtain ⟨c, z, hx, hc⟩ := syntax_head hv
  have h1 : (w ++ (x ++ s)).dropWhile tomlSpace = x ++ s := dropWhile_ws hw (by rw [hx]; exact head_space hc _)
  have h2 := node_read hv ((w ++ (x ++ s)).length + 1) s (by simp only [List.length_append]; omega) (stmtEnd_after hr)
  unfold tomlEntry
  rw [tomlReadKey_of hk (by simpa using hl) (keyEnd_equals _)]
  simp only [h1, h2, stmtEnd_read hr, List.dropLast_concat, List.getLast?_concat, Option.getD_some]

/-- What is done with a line that has a statement. -/
theorem tomlStmts_stmt {S : TomlScalars} {n : Nat} {w x s r : Str} {st : TomlStmt} (hw : TomlWs w) (hx : TomlStmtText S st x)
    (hr : StmtEnd s r) : tomlStmts S (n + 1) (w ++ (x ++ s)) = (tomlStmts S n r).map (st :: ·) := by
  cases hx with
  | @entry p k y w' x t hk hl hw' hv =>
    obtain ⟨y', hd, hk', _, c, r', hc, hh⟩ := keyText_dropWhile (keyText_ws hk hw) ('=' :: (w' ++ (x ++ s)))
    have h1 : (w ++ (y ++ '=' :: (w' ++ x) ++ s)).dropWhile tomlSpace = y' ++ '=' :: (w' ++ (x ++ s)) := by
      rw [← hd]
      simp
    have he := tomlEntry_of hk' hl hw' hv hr
    rw [tomlStmts, h1]
    rw [hc, List.cons_append] at he ⊢
    have ne : ∀ {a : Char}, (tomlBare a = false ∧ a ≠ '"' ∧ a ≠ '\'') → c ≠ a := fun h => partHead_ne hh h
    have hn : tomlNewline (c :: (r' ++ '=' :: (w' ++ (x ++ s)))) = none := by
      cases hn : tomlNewline (c :: (r' ++ '=' :: (w' ++ (x ++ s)))) with
      | none => rfl
      | some q =>
        obtain ⟨e, he, h⟩ := tomlNewline_iff.1 hn
        rcases he with rfl | rfl
        · exact absurd (List.cons.inj h).1 (ne (by decide))
        · exact absurd (List.cons.inj h).1 (ne (by decide))
    split
    · rename_i h; cases h
    · rename_i h; exact absurd (List.cons.inj h).1 (ne (by decide))
    · rename_i h; exact absurd (List.cons.inj h).1 (ne (by decide))
    · rename_i h; exact absurd (List.cons.inj h).1 (ne (by decide))
    · rename_i h
      rw [← h, hn]
      simp only
      rw [he]
  | @table p x hk hl =>
    have h := tomlHeader_of (close := c!"]") (.inl rfl) hk hl hr
    have h1 : (w ++ ('[' :: (x ++ [']']) ++ s)).dropWhile tomlSpace = '[' :: (x ++ (c!"]" ++ s)) := by
      rw [List.cons_append, dropWhile_ws hw (begins_cons.2 (by decide))]
      simp
    have hb : ∀ q, x ++ (c!"]" ++ s) ≠ '[' :: q := by
      intro q hq
      have := hk
      cases this with
      | @one k v z v' hv hz _ =>
        obtain ⟨c, r', rfl, hh⟩ := part_head hz
        cases v with
        | nil => exact absurd (List.cons.inj hq).1 (partHead_ne hh (by decide))
        | cons a v => have := hv a (.head _); rw [(List.cons.inj hq).1] at this; exact absurd this (by decide)
      | @cons k v z v' _ _ hv hz _ =>
        obtain ⟨c, r', rfl, hh⟩ := part_head hz
        cases v with
        | nil => exact absurd (List.cons.inj hq).1 (partHead_ne hh (by decide))
        | cons a v => have := hv a (.head _); rw [(List.cons.inj hq).1] at this; exact absurd this (by decide)
    rw [tomlStmts, h1]
    split
    · rename_i h; cases h
    · rename_i h; exact absurd (List.cons.inj h).1 (by decide)
    · rename_i h'; exact absurd (List.cons.inj h').2 (hb _)
    · rename_i h'
      obtain rfl := (List.cons.inj h').2
      rw [h]
    · rename_i h3 h'
      exact absurd (List.cons.inj h').1.symm h3
  | @element p x hk hl =>
    have h := tomlHeader_of (close := c!"]]") (.inr rfl) hk hl hr
    have h1 : (w ++ ('[' :: '[' :: (x ++ [']', ']']) ++ s)).dropWhile tomlSpace = '[' :: '[' :: (x ++ (c!"]]" ++ s)) := by
      rw [List.cons_append, dropWhile_ws hw (begins_cons.2 (by decide))]
      simp
    rw [tomlStmts, h1]
    simp only
    rw [h]

theorem tomlStmts_blank {S : TomlScalars} {n : Nat} {s r : Str} (hr : StmtEnd s r) (hs : s ≠ []) : 
    tomlStmts S (n + 1) s = tomlStmts S n r ∨ (r = [] ∧ tomlStmts S (n + 1) s = some []) := by
  have key : ∀ {w t q : Str}, TomlWs w → (t = [] ∨ TomlRemark t) → s = w ++ (t ++ q) → (q = [] ∧ r = []) ∨ (∃ e, TomlNl e ∧ q = e ++ r) →
      tomlStmts S (n + 1) s = tomlStmts S n r ∨ (r = [] ∧ tomlStmts S (n + 1) s = some []) := by
    intro w t q hw ht hs hq
    rcases ht with rfl | ht
    · rw [hs, List.nil_append]
      rcases hq with ⟨rfl, rfl⟩ | ⟨e, he, rfl⟩
      · right
        rw [tomlStmts, dropWhile_ws hw (begins_nil _)]
        exact ⟨rfl, rfl⟩
      · left
        rw [tomlStmts, dropWhile_ws hw (nl_begins he (by decide) (by decide) _)]
        rcases he with rfl | rfl <;> rfl
    · obtain ⟨u, rfl, hu⟩ := ht
      left
      have hd : s.dropWhile tomlSpace = '#' :: (u ++ q) := by
        rw [hs, List.cons_append]
        exact dropWhile_ws hw (begins_cons.2 (by decide))
      have hl : tomlLineEnd ('#' :: (u ++ q)) = some r := by
        have ht : TomlTail ('#' :: u) := ⟨[], '#' :: u, rfl, tomlWs_nil, .inr ⟨u, rfl, hu⟩⟩
        rcases hq with ⟨rfl, rfl⟩ | ⟨e, he, rfl⟩
        · rw [List.append_nil]; exact tomlLineEnd_last ht
        · exact tomlLineEnd_nl ht he
      rw [tomlStmts, hd]
      simp only
      rw [hl]
  cases hr with
  | last h =>
    obtain ⟨w, t, h1, hw, ht⟩ := h
    exact key (q := []) hw ht (by rw [List.append_nil]; exact h1) (.inl ⟨rfl, rfl⟩)
  | @line z e y h he =>
    obtain ⟨w, t, rfl, hw, ht⟩ := h
    exact key (q := e ++ r) hw ht (by rw [List.append_assoc]) (.inr ⟨e, he, rfl⟩)

theorem stmtText_length {S : TomlScalars} {st : TomlStmt} {x : Str} (h : TomlStmtText S st x) : 1 ≤ x.length := by
  cases h with
  | entry => simp; omega
  | table => simp
  | element => simp

theorem nl_length {e : Str} (h : TomlNl e) : 1 ≤ e.length := by rcases h with rfl | rfl <;> simp

theorem tomlStmts_of {S : TomlScalars} {l : List TomlStmt} {x : Str} (h : TomlLinesText S l x) {n : Nat} (hn : x.length < n) :
    tomlStmts S n x = some l := by
  induction h generalizing n with
  | @last x h =>
    cases n with
    | zero => omega
    | succ n =>
      cases x with
      | nil => rfl
      | cons c x =>
        rcases tomlStmts_blank (S := S) (n := n) (.last h) (by simp) with h | ⟨_, h⟩
        · rw [h]
          cases n with
          | zero => simp at hn
          | succ n => rfl
        · exact h
  | @blank l x e y hx he hy ih =>
    cases n with
    | zero => omega
    | succ n =>
      have hy' := ih (n := n) (by have := nl_length he; simp only [List.length_append] at hn; omega)
      rcases tomlStmts_blank (S := S) (n := n) (.line (y := y) hx he) (by rcases he with rfl | rfl <;> simp) with h | ⟨h1, h2⟩
      · rw [h, hy']
      · rw [h2]
        subst h1
        rw [← hy']
        cases n with
        | zero => have := nl_length he; simp only [List.length_append] at hn; omega
        | succ n => rfl
  | @lastStmt st w x z hw hx hz =>
    cases n with
    | zero => omega
    | succ n =>
      rw [tomlStmts_stmt hw hx (.last hz)]
      cases n with
      | zero => have := stmtText_length hx; simp only [List.length_append] at hn; omega
      | succ n => rfl
  | @stmt st l w x z e y hw hx hz he _ ih =>
    cases n with
    | zero => omega
    | succ n =>
      rw [tomlStmts_stmt hw hx (.line hz he), ih (by have := nl_length he; simp only [List.length_append] at hn; omega)]
      rfl

theorem tomlHeader_inv {S : TomlScalars} {close s r : Str} {p : List Str} (h : tomlHeader S close s = some (p, r)) :
    ∃ x s', s = x ++ (close ++ s') ∧ TomlKeyText p x ∧ p.length < S.limit ∧ StmtEnd s' r := by
  unfold tomlHeader at h
  split at h
  · cases h
  · rename_i p' r' hk
    obtain ⟨x, rfl, hx, hl⟩ := tomlReadKey_inv hk
    split at h
    · cases h
    · rename_i r2 hp
      split at h
      · cases h
        rename_i he
        refine ⟨x, r2, ?_, hx, hl, stmtEnd_inv he⟩
        rw [stripPrefix_eq_some.1 hp]
      · cases h

theorem tomlEntry_inv {S : TomlScalars} (hS : S.date [] = none) {s r : Str} {st : TomlStmt} (h : tomlEntry S s = some (st, r)) :
    ∃ x s', s = x ++ s' ∧ TomlStmtText S st x ∧ StmtEnd s' r := by
  unfold tomlEntry at h
  split at h
  · rename_i p r1 hk
    obtain ⟨y, rfl, hy, hl⟩ := tomlReadKey_inv hk
    have hp := path_last (keyText_ne hy)
    have hl' : p.dropLast.length + 1 < S.limit := by
      rw [hp] at hl
      simpa using hl
    rw [hp] at hy
    have hsp := space_split r1
    split at h
    · cases h
    · rename_i t r2 hv
      obtain ⟨x, hx0, hx⟩ := (nodes_inv hS _).1 _ _ _ _ hv
      rw [hx0] at hsp
      split at h
      · cases h
        rename_i he
        refine ⟨y ++ '=' :: (r1.takeWhile tomlSpace ++ x), r2, ?_, .entry hy hl' (takeWhile_ws r1) hx, stmtEnd_inv he⟩
        rw [List.append_assoc, List.cons_append, List.append_assoc, ← hsp]
      · cases h
  · cases h

theorem linesText_stmt {S : TomlScalars} {n : Nat} (ih : ∀ {s l}, tomlStmts S n s = some l → TomlLinesText S l s) {w x s r : Str} {st : TomlStmt}
    {l : List TomlStmt} (hw : TomlWs w) (hx : TomlStmtText S st x) (hr : StmtEnd s r) (h : (tomlStmts S n r).map (st :: ·) = some l) :
    TomlLinesText S l (w ++ (x ++ s)) := by
  rw [Option.map_eq_some_iff] at h
  obtain ⟨l', h1, rfl⟩ := h
  cases hr with
  | last hz =>
    cases n with
    | zero => cases h1
    | succ n => cases h1; exact .lastStmt hw hx hz
  | line hz he => exact .stmt hw hx hz he (ih h1)

theorem linesText_blank {S : TomlScalars} {n : Nat} (ih : ∀ {s l}, tomlStmts S n s = some l → TomlLinesText S l s) {w s r : Str}
    {l : List TomlStmt} (hw : TomlWs w) (hr : StmtEnd s r) (h : tomlStmts S n r = some l) : TomlLinesText S l (w ++ s) := by
  have ht : ∀ {z}, TomlTail z → TomlTail (w ++ z) := by
    rintro z ⟨w', t, rfl, h1, h2⟩
    exact ⟨w ++ w', t, by rw [List.append_assoc], tomlWs_append hw h1, h2⟩
  cases hr with
  | last hz =>
    cases n with
    | zero => cases h
    | succ n => cases h; exact .last (ht hz)
  | line hz he => rw [← List.append_assoc]; exact .blank (ht hz) he (ih h)

theorem tomlStmts_inv {S : TomlScalars} (hS : S.date [] = none) {n : Nat} : ∀ {s : Str} {l : List TomlStmt}, tomlStmts S n s = some l →
    TomlLinesText S l s := by
  induction n with
  | zero => intro s l h; cases h
  | succ n ih =>
    intro s l h
    have hs := space_split s
    rw [tomlStmts] at h
    split at h
    · cases h
      rename_i hd
      exact .last ⟨s, [], by rw [List.append_nil], by rw [hs, hd, List.append_nil]; exact takeWhile_ws s, .inl rfl⟩
    · rename_i r hd
      split at h
      · rename_i r' he
        rw [hd] at hs
        rw [hs]
        exact linesText_blank ih (takeWhile_ws s) (stmtEnd_inv he) h
      · cases h
    · rename_i r hd
      split at h
      · rename_i p r' hh
        obtain ⟨x, s', rfl, hx, hl, he⟩ := tomlHeader_inv hh
        have := linesText_stmt ih (takeWhile_ws s) (.element hx hl) he h
        rw [hd] at hs
        rw [hs]
        simpa using this
      · cases h
    · rename_i r _ hd
      split at h
      · rename_i p r' hh
        obtain ⟨x, s', rfl, hx, hl, he⟩ := tomlHeader_inv hh
        have := linesText_stmt ih (takeWhile_ws s) (.table hx hl) he h
        rw [hd] at hs
        rw [hs]
        simpa using this
      · cases h
    · rename_i c r _ _ _ hd
      split at h
      · rename_i r' hn
        obtain ⟨e, he, h1⟩ := tomlNewline_iff.1 hn
        rw [hd, h1] at hs
        rw [hs]
        have : StmtEnd (e ++ r') r' := .line (z := []) ⟨[], [], rfl, tomlWs_nil, .inl rfl⟩ he
        exact linesText_blank ih (takeWhile_ws s) this h
      · split at h
        · rename_i e r' he
          obtain ⟨x, s', h1, hx, hr⟩ := tomlEntry_inv hS he
          rw [hd, h1] at hs
          rw [hs]
          exact linesText_stmt ih (takeWhile_ws s) hx hr h
        · cases h

/-- The statements that are read are those of the document. -/
theorem tomlStmts_iff {S : TomlScalars} (hS : S.date [] = none) {s : Str} {l : List TomlStmt} :
    tomlStmts S (s.length + 1) (tomlMark s) = some l ↔ TomlDocumentText S l s := by
  have hm : ∀ c : Char, c.toNat = 0xFEFF ↔ c = Char.ofNat 0xFEFF := fun c => ⟨toNat_eq_char, by rintro rfl; decide⟩
  constructor
  · intro h
    have h := tomlStmts_inv hS h
    refine ⟨_, h, ?_⟩
    cases s with
    | nil => exact .inr ⟨rfl, by simp⟩
    | cons c r =>
      have hd : tomlMark (c :: r) = if c.toNat = 0xFEFF then r else c :: r := rfl
      by_cases hc : c.toNat = 0xFEFF
      · rw [hd, if_pos hc, (hm c).1 hc]
        exact .inl rfl
      · rw [hd, if_neg hc]
        exact .inr ⟨rfl, fun h => hc ((hm c).2 (Option.some.inj h))⟩
  · rintro ⟨x, hx, rfl | ⟨rfl, hc⟩⟩
    · have : tomlMark (Char.ofNat 0xFEFF :: x) = x := by
        have hd : tomlMark (Char.ofNat 0xFEFF :: x) = if (Char.ofNat 0xFEFF).toNat = 0xFEFF then x else Char.ofNat 0xFEFF :: x := rfl
        rw [hd, if_pos (by decide)]
      rw [this]
      exact tomlStmts_of hx (by simp; omega)
    · have : tomlMark s = s := by
        cases s with
        | nil => rfl
        | cons c r =>
          have hd : tomlMark (c :: r) = if c.toNat = 0xFEFF then r else c :: r := rfl
          rw [hd, if_neg (fun h => hc (by rw [(hm c).1 h]; rfl))]
      rw [this]
      exact tomlStmts_of hx (by omega)

end Rops
