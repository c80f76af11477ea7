import Verif.Lemmas.TomlStrings
import Verif.Lemmas.TomlValues
import Verif.Lemmas.TomlFloats
/-!
# The grammar of TOML: keys, numbers and dates
-/

namespace Rops
open Spec

/-! ## Characters -/

theorem alphanum_iff {c : Char} : c.isAlphanum = true ↔ ('a' ≤ c ∧ c ≤ 'z') ∨ ('A' ≤ c ∧ c ≤ 'Z') ∨ ('0' ≤ c ∧ c ≤ '9') := by
  simp only [Char.isAlphanum, Char.isAlpha, Char.isUpper, Char.isLower, Char.isDigit, Char.le_def, UInt32.le_iff_toNat_le, ge_iff_le,
    Bool.or_eq_true, Bool.and_eq_true, decide_eq_true_eq]
  have e1 : 'a'.val.toNat = 97 := rfl
  have e2 : 'z'.val.toNat = 122 := rfl
  have e3 : 'A'.val.toNat = 65 := rfl
  have e4 : 'Z'.val.toNat = 90 := rfl
  have e5 : '0'.val.toNat = 48 := rfl
  have e6 : '9'.val.toNat = 57 := rfl
  have f1 : UInt32.toNat 97 = 97 := rfl
  have f2 : UInt32.toNat 122 = 122 := rfl
  have f3 : UInt32.toNat 65 = 65 := rfl
  have f4 : UInt32.toNat 90 = 90 := rfl
  have f5 : UInt32.toNat 48 = 48 := rfl
  have f6 : UInt32.toNat 57 = 57 := rfl
  rw [e1, e2, e3, e4, e5, e6]
  try simp only [f1, f2, f3, f4, f5, f6]
  omega

theorem tomlBare_iff {c : Char} : tomlBare c = true ↔ TomlBareChar c := by
  unfold tomlBare TomlBareChar
  simp only [Bool.or_eq_true, alphanum_iff, beq_iff_eq, or_assoc]

theorem tomlTokenChar_iff {c : Char} : tomlTokenChar c = true ↔ TomlWordChar c := by
  unfold tomlTokenChar TomlWordChar
  simp only [Bool.or_eq_true, alphanum_iff, beq_iff_eq, List.mem_cons, List.not_mem_nil, or_false, or_assoc]

theorem isDigit_toNat {c : Char} : c.isDigit = true ↔ 48 ≤ c.toNat ∧ c.toNat ≤ 57 := by
  simp only [Char.isDigit, ge_iff_le, UInt32.le_iff_toNat_le, Bool.and_eq_true, decide_eq_true_eq]
  rfl

theorem isDigit_iff {c : Char} : c.isDigit = true ↔ '0' ≤ c ∧ c ≤ '9' := by
  rw [isDigit_toNat, Char.le_def, Char.le_def, UInt32.le_iff_toNat_le, UInt32.le_iff_toNat_le]
  rfl

theorem hexVal_toNat {c : Char} {d : Nat} : hexVal c = some d → (48 ≤ c.toNat ∧ c.toNat ≤ 57 ∧ d = c.toNat - 48) ∨
    (65 ≤ c.toNat ∧ c.toNat ≤ 70 ∧ d = c.toNat - 55) ∨ (97 ≤ c.toNat ∧ c.toNat ≤ 102 ∧ d = c.toNat - 87) := by
  intro h
  unfold hexVal at h
  split at h
  · cases h; omega
  · split at h
    · cases h; omega
    · split at h
      · cases h; omega
      · cases h

theorem digitIn_ten {c : Char} : c.isDigit = true ↔ DigitIn 10 c := by
  rw [isDigit_toNat]
  constructor
  · intro h
    refine ⟨c.toNat - 48, hexVal_iff.1 ?_, by omega⟩
    unfold hexVal
    rw [if_pos h]
  · rintro ⟨d, hd, hl⟩
    have := hexVal_toNat (hexVal_iff.2 hd)
    omega

theorem digitIn_sixteen {c : Char} : (hexVal c).isSome = true ↔ DigitIn 16 c := by
  constructor
  · intro h
    obtain ⟨d, hd⟩ := Option.isSome_iff_exists.1 h
    exact ⟨d, hexVal_iff.1 hd, hexDigit_lt (hexVal_iff.1 hd)⟩
  · rintro ⟨d, hd, _⟩
    rw [hexVal_iff.2 hd]
    rfl

theorem digitIn_eight {c : Char} : (c.isDigit && decide (c.toNat < 56)) = true ↔ DigitIn 8 c := by
  rw [Bool.and_eq_true, decide_eq_true_eq, isDigit_toNat]
  constructor
  · intro h
    refine ⟨c.toNat - 48, hexVal_iff.1 ?_, by omega⟩
    unfold hexVal
    rw [if_pos h.1]
  · rintro ⟨d, hd, hl⟩
    have := hexVal_toNat (hexVal_iff.2 hd)
    omega

theorem digitIn_two {c : Char} : (c == '0' || c == '1') = true ↔ DigitIn 2 c := by
  rw [Bool.or_eq_true, beq_iff_eq, beq_iff_eq]
  constructor
  · rintro (rfl | rfl)
    · exact ⟨0, hexVal_iff.1 rfl, by omega⟩
    · exact ⟨1, hexVal_iff.1 rfl, by omega⟩
  · rintro ⟨d, hd, hl⟩
    have := hexVal_toNat (hexVal_iff.2 hd)
    have h48 : c.toNat = 48 ∨ c.toNat = 49 := by omega
    rcases h48 with h | h
    · left; exact toNat_eq_char h
    · right; exact toNat_eq_char h

/-! ## Digits -/

theorem grouped_head {P : Char → Prop} {ds x : Str} (h : Grouped P ds x) : ∃ c r r', x = c :: r ∧ ds = c :: r' ∧ P c := by
  cases h with
  | one h => exact ⟨_, _, _, rfl, rfl, h⟩
  | cons h _ => exact ⟨_, _, _, rfl, rfl, h⟩
  | under h _ => exact ⟨_, _, _, rfl, rfl, h⟩

theorem tomlDigits_iff {ok : Char → Bool} {P : Char → Prop} (hP : ∀ c, ok c = true ↔ P c) (hu : ok '_' = false) {s ds : Str} :
    tomlDigits ok s = some ds ↔ Grouped P ds s := by
  constructor
  · induction s using tomlDigits.induct ok generalizing ds with
    | case1 => intro h; cases h
    | case2 c hc =>
      intro h
      rw [tomlDigits, if_pos hc] at h
      cases h
      exact .one ((hP c).1 hc)
    | case3 c hc =>
      intro h
      rw [tomlDigits, if_neg hc] at h
      cases h
    | case4 c r hc ih =>
      intro h
      rw [tomlDigits, if_pos hc] at h
      cases hr : tomlDigits ok r with
      | none => rw [hr] at h; cases h
      | some ds' =>
        rw [hr] at h
        cases h
        exact .under ((hP c).1 hc) (ih hr)
    | case5 c r hc =>
      intro h
      rw [tomlDigits, if_neg hc] at h
      cases h
    | case6 c r h1 h2 hc ih =>
      intro h
      rw [tomlDigits, if_pos hc] at h
      · cases hr : tomlDigits ok r with
        | none => rw [hr] at h; cases h
        | some ds' =>
          rw [hr] at h
          cases h
          exact .cons ((hP c).1 hc) (ih hr)
      · exact h1
      · exact h2
    | case7 c r h1 h2 hc =>
      intro h
      rw [tomlDigits, if_neg hc] at h
      · cases h
      · exact h1
      · exact h2
  · intro h
    induction h with
    | one h => rw [tomlDigits, if_pos ((hP _).2 h)]
    | @cons c ds x h hg ih =>
      obtain ⟨d, r, r', rfl, rfl, hd⟩ := grouped_head hg
      have hne : d ≠ '_' := by
        rintro rfl
        rw [(hP _).2 hd] at hu
        cases hu
      rw [tomlDigits, if_pos ((hP _).2 h), ih]
      · rfl
      · simp
      · intro r'' hr
        exact hne (List.cons.inj hr).1
    | under h _ ih =>
      rw [tomlDigits, if_pos ((hP _).2 h), ih]
      rfl

theorem grouped_all {P : Char → Prop} {ds x : Str} (h : Grouped P ds x) : ∀ c ∈ ds, P c := by
  induction h with
  | one h => intro c hc; obtain rfl := List.mem_singleton.1 hc; exact h
  | cons h _ ih | under h _ ih =>
    intro c hc
    rcases List.mem_cons.1 hc with rfl | hc
    · exact h
    · exact ih c hc

theorem grouped_chars {P : Char → Prop} {ds x : Str} (h : Grouped P ds x) : ∀ c ∈ x, P c ∨ c = '_' := by
  induction h with
  | one h => intro c hc; obtain rfl := List.mem_singleton.1 hc; exact .inl h
  | cons h _ ih =>
    intro c hc
    rcases List.mem_cons.1 hc with rfl | hc
    · exact .inl h
    · exact ih c hc
  | under h _ ih =>
    intro c hc
    rcases List.mem_cons.1 hc with rfl | hc
    · exact .inl h
    · rcases List.mem_cons.1 hc with rfl | hc
      · exact .inr rfl
      · exact ih c hc

theorem tomlDecimal_iff {s ds : Str} : tomlDecimal s = some ds ↔ TomlDec ds s := by
  unfold tomlDecimal TomlDec
  rw [← tomlDigits_iff (ok := Char.isDigit) (fun c => digitIn_ten) (by decide)]
  constructor
  · intro h
    split at h
    · rename_i ds' hd
      split at h
      · cases h
      · cases h
        rename_i hz
        refine ⟨hd, ?_⟩
        by_cases h0 : ds.head? = some '0'
        · left
          have hz : ¬(1 < ds.length) := fun h => hz ⟨h0, h⟩
          match ds, hz, h0 with
          | [c], _, h0 => obtain rfl := Option.some.inj h0; rfl
          | _ :: _ :: _, hz, _ => simp at hz
        · exact .inr h0
    · cases h
  · rintro ⟨h, hz⟩
    rw [h]
    dsimp only
    rw [if_neg]
    rintro ⟨h0, h1⟩
    rcases hz with rfl | hz
    · simp at h1
    · exact hz h0

/-! ## Integers -/

theorem tomlFits_iff {n : Int} {i : Int64} : tomlFits n = some i ↔ n = i.toInt := by
  constructor
  · intro h
    unfold tomlFits at h
    split at h
    · cases h
      rename_i hn
      rw [Int64.toInt_ofInt_of_le (by omega) (by omega)]
    · cases h
  · rintro rfl
    exact tomlFits_int64 i

theorem dec_number {ds x : Str} (h : TomlDec ds x) : NumberIn 10 ds (tomlNat 10 ds) := numberIn_iff.2 ⟨grouped_all h.1, rfl⟩

theorem tomlInteger_base {base : Nat} {ok : Char → Bool} 
    (hP : ∀ c, ok c = true ↔ DigitIn base c) (hu : ok '_' = false) {r : Str} {i : Int64} :
    ((tomlDigits ok r).bind fun ds => tomlFits (tomlNat base ds)) = some i ↔
      ∃ ds n, Grouped (DigitIn base) ds r ∧ NumberIn base ds n ∧ (n : Int) = i.toInt := by
  rw [Option.bind_eq_some_iff]
  constructor
  · rintro ⟨ds, h1, h2⟩
    have hg := (tomlDigits_iff hP hu).1 h1
    exact ⟨ds, _, hg, numberIn_iff.2 ⟨grouped_all hg, rfl⟩, tomlFits_iff.1 h2⟩
  · rintro ⟨ds, n, h1, h2, h3⟩
    obtain ⟨_, rfl⟩ := numberIn_iff.1 h2
    exact ⟨ds, (tomlDigits_iff hP hu).2 h1, tomlFits_iff.2 h3⟩

theorem digitIn_char {base : Nat} {c : Char} (h : DigitIn base c) : (48 ≤ c.toNat ∧ c.toNat ≤ 57) ∨ (65 ≤ c.toNat ∧ c.toNat ≤ 70) ∨
    (97 ≤ c.toNat ∧ c.toNat ≤ 102) := by
  obtain ⟨d, hd, _⟩ := h
  have := hexVal_toNat (hexVal_iff.2 hd)
  omega

theorem dec_head {ds x : Str} (h : TomlDec ds x) : ∃ c r, x = c :: r ∧ c.isDigit = true ∧ ∀ l r', x = '0' :: l :: r' → False := by
  obtain ⟨hg, hz⟩ := h
  obtain ⟨c, r, r', rfl, rfl, hc⟩ := grouped_head hg
  refine ⟨c, r, rfl, digitIn_ten.2 hc, fun l r'' he => ?_⟩
  obtain rfl := (List.cons.inj he).1
  rcases hz with hz | hz
  · rw [hz] at hg
    cases hg with
    | one => cases he
    | cons _ hg => cases hg
    | under _ hg => cases hg
  · exact hz rfl

theorem tomlSign_inv (s : Str) : ∃ sg, s = sg ++ (tomlSign s).2 ∧ TomlSignText (if (tomlSign s).1 then ['-'] else []) sg := by
  unfold tomlSign
  split
  · exact ⟨['-'], rfl, .inr ⟨rfl, rfl⟩⟩
  · exact ⟨['+'], rfl, .inl ⟨rfl, .inr rfl⟩⟩
  · exact ⟨[], rfl, .inl ⟨rfl, .inl rfl⟩⟩

theorem tomlSign_of {kept sg x : Str} (h : TomlSignText kept sg) (h1 : NotHead '-' x) (h2 : NotHead '+' x) :
    (tomlSign (sg ++ x)).2 = x ∧ kept = if (tomlSign (sg ++ x)).1 then ['-'] else [] := by
  rcases h with ⟨rfl, rfl | rfl⟩ | ⟨rfl, rfl⟩
  · have : tomlSign ([] ++ x) = (false, x) := by
      rw [List.nil_append]
      unfold tomlSign
      split
      · exact absurd rfl h1
      · exact absurd rfl h2
      · rfl
    rw [this]
    exact ⟨rfl, rfl⟩
  · exact ⟨rfl, rfl⟩
  · exact ⟨rfl, rfl⟩

theorem digit_signless {c : Char} (h : c.isDigit = true) (r : Str) : NotHead '-' (c :: r) ∧ NotHead '+' (c :: r) := by
  constructor
  · intro he
    obtain rfl := Option.some.inj he
    exact absurd h (by decide)
  · intro he
    obtain rfl := Option.some.inj he
    exact absurd h (by decide)

theorem tomlInteger_signed {s : Str} {i : Int64} : ((tomlDecimal (tomlSign s).2).bind fun ds => tomlFits (tomlSigned (tomlSign s).1 (tomlNat 10 ds))) = some i ↔
    ∃ kept sg ds x n, s = sg ++ x ∧ TomlSignText kept sg ∧ TomlDec ds x ∧ NumberIn 10 ds n ∧ (if kept = [] then (n : Int) else -(n : Int)) = i.toInt := by
  rw [Option.bind_eq_some_iff]
  constructor
  · rintro ⟨ds, h1, h2⟩
    have hd := tomlDecimal_iff.1 h1
    have hf := tomlFits_iff.1 h2
    obtain ⟨sg, h3, h4⟩ := tomlSign_inv s
    refine ⟨_, sg, ds, _, _, h3, h4, hd, dec_number hd, ?_⟩
    rw [← hf]
    unfold tomlSigned
    cases (tomlSign s).1 <;> rfl
  · rintro ⟨kept, sg, ds, x, n, rfl, hs, hd, hn, h⟩
    obtain ⟨_, rfl⟩ := numberIn_iff.1 hn
    obtain ⟨c, r, rfl, hc, _⟩ := dec_head hd
    obtain ⟨g1, g2⟩ := digit_signless hc r
    obtain ⟨h1, h2⟩ := tomlSign_of hs g1 g2
    refine ⟨ds, by rw [h1]; exact tomlDecimal_iff.2 hd, tomlFits_iff.2 ?_⟩
    rw [← h, h2]
    unfold tomlSigned
    cases (tomlSign (sg ++ c :: r)).1 <;> rfl

/-- Integers are those of the grammar that fit. -/
theorem tomlInteger_iff {s : Str} {i : Int64} : tomlInteger s = some i ↔ TomlIntText i.toInt s := by
  have hb : ∀ {l : Char} {base : Nat} {r : Str}, (l, base) ∈ [('x', 16), ('o', 8), ('b', 2)] →
      ((∃ ds n, Grouped (DigitIn base) ds r ∧ NumberIn base ds n ∧ (n : Int) = i.toInt) ↔ TomlIntText i.toInt ('0' :: l :: r)) := by
    intro l base r hl
    constructor
    · rintro ⟨ds, n, h1, h2, h3⟩
      rw [← h3]
      exact .base hl h1 h2
    · intro h
      generalize hi : i.toInt = k at h ⊢
      generalize hs : '0' :: l :: r = s at h
      cases h with
      | plain hsg hd _ =>
        exfalso
        obtain ⟨_, _, _, _, h0⟩ := dec_head hd
        rcases hsg with rfl | rfl
        · exact h0 _ _ hs.symm
        · exact absurd (List.cons.inj hs).1 (by decide)
      | minus => exact absurd (List.cons.inj hs).1 (by decide)
      | @base l' base' n ds x hl' hg hn =>
        obtain ⟨_, h2⟩ := List.cons.inj hs
        obtain ⟨rfl, rfl⟩ := List.cons.inj h2
        have : base = base' := by
          simp only [List.mem_cons, Prod.mk.injEq, List.not_mem_nil, or_false] at hl hl'
          rcases hl with ⟨rfl, rfl⟩ | ⟨rfl, rfl⟩ | ⟨rfl, rfl⟩ <;> rcases hl' with ⟨h, rfl⟩ | ⟨h, rfl⟩ | ⟨h, rfl⟩ <;>
            first | rfl | exact absurd h (by decide)
        subst this
        exact ⟨ds, n, hg, hn, rfl⟩
  unfold tomlInteger
  split
  · rw [tomlInteger_base (fun c => digitIn_sixteen) (by decide), hb (l := 'x') (by decide)]
  · rw [tomlInteger_base (fun c => digitIn_eight) (by decide), hb (l := 'o') (by decide)]
  · rw [tomlInteger_base (fun c => digitIn_two) (by decide), hb (l := 'b') (by decide)]
  · rename_i n1 n2 n3
    rw [tomlInteger_signed]
    constructor
    · rintro ⟨kept, sg, ds, x, n, rfl, hs, hd, hn, h⟩
      rw [← h]
      rcases hs with ⟨rfl, hsg⟩ | ⟨rfl, rfl⟩
      · exact .plain hsg hd hn
      · exact .minus hd hn
    · intro h
      generalize hi : i.toInt = k at h ⊢
      cases h with
      | plain hsg hd hn => exact ⟨[], _, _, _, _, rfl, .inl ⟨rfl, hsg⟩, hd, hn, rfl⟩
      | minus hd hn => exact ⟨['-'], _, _, _, _, rfl, .inr ⟨rfl, rfl⟩, hd, hn, rfl⟩
      | base hl _ _ =>
        exfalso
        simp only [List.mem_cons, Prod.mk.injEq, List.not_mem_nil, or_false] at hl
        rcases hl with ⟨rfl, rfl⟩ | ⟨rfl, rfl⟩ | ⟨rfl, rfl⟩
        · exact n1 _ rfl
        · exact n2 _ rfl
        · exact n3 _ rfl

/-! ## Floats -/

theorem digits10_iff {s ds : Str} : tomlDigits Char.isDigit s = some ds ↔ Grouped (DigitIn 10) ds s :=
  tomlDigits_iff (fun _ => digitIn_ten) (by decide)

theorem grouped_signless {ds x : Str} (h : Grouped (DigitIn 10) ds x) : NotHead '-' x ∧ NotHead '+' x := by
  obtain ⟨c, r, _, rfl, _, hc⟩ := grouped_head h
  exact digit_signless (digitIn_ten.2 hc) r

theorem tomlExponent_iff {s e : Str} : tomlExponent s = some e ↔ TomlExpText e s := by
  unfold TomlExpText
  cases s with
  | nil =>
    rw [tomlExponent]
    constructor
    · intro h; cases h; exact .inl ⟨rfl, rfl⟩
    · rintro (⟨rfl, _⟩ | ⟨_, _, _, _, _, _, _, _, _, h⟩)
      · rfl
      · cases h
  | cons c r =>
    rw [tomlExponent]
    constructor
    · intro h
      split at h
      · rename_i hc
        rw [Option.map_eq_some_iff] at h
        obtain ⟨ds, h1, rfl⟩ := h
        obtain ⟨sg, h2, h3⟩ := tomlSign_inv r
        exact .inr ⟨c, _, sg, ds, _, hc, h3, digits10_iff.1 h1, rfl, by rw [← h2]⟩
      · cases h
    · rintro (⟨_, h⟩ | ⟨l, kept, sg, ds, y, hl, hs, hg, rfl, h⟩)
      · cases h
      · obtain ⟨rfl, rfl⟩ := List.cons.inj h
        obtain ⟨g1, g2⟩ := grouped_signless hg
        obtain ⟨h1, h2⟩ := tomlSign_of hs g1 g2
        rw [if_pos hl, h1, digits10_iff.2 hg, h2]
        rfl

/-- A digit or an underscore. -/
def digitOr (c : Char) : Bool := c.isDigit || c == '_'

theorem grouped_digitOr {ds x : Str} (h : Grouped (DigitIn 10) ds x) : ∀ c ∈ x, digitOr c = true := fun c hc => by
  unfold digitOr
  rcases grouped_chars h c hc with h | rfl
  · rw [digitIn_ten.2 h]; rfl
  · rfl

theorem exp_begins {e z : Str} (h : TomlExpText e z) : NotBegins digitOr z ∧ NotHead '.' z := by
  rcases h with ⟨_, rfl⟩ | ⟨l, _, _, _, _, hl, _, _, _, rfl⟩
  · exact ⟨begins_nil _, by simp [NotHead]⟩
  · rcases hl with rfl | rfl
    · exact ⟨begins_cons.2 (by decide), fun h => absurd (Option.some.inj h) (by decide)⟩
    · exact ⟨begins_cons.2 (by decide), fun h => absurd (Option.some.inj h) (by decide)⟩

theorem tomlFraction_iff {s t : Str} : tomlFraction s = some t ↔
    ∃ f y e z, t = f ++ e ∧ s = y ++ z ∧ TomlFracText f y ∧ TomlExpText e z ∧ (y ≠ [] ∨ z ≠ []) := by
  cases s with
  | nil =>
    rw [tomlFraction]
    constructor
    · intro h; cases h
    · rintro ⟨f, y, e, z, _, h, _, _, h'⟩
      obtain ⟨rfl, rfl⟩ := List.append_eq_nil_iff.1 h.symm
      simp at h'
  | cons c r =>
    rw [tomlFraction]
    change (if c = '.' then (tomlDigits Char.isDigit (r.takeWhile digitOr)).bind fun ds => (tomlExponent (r.dropWhile digitOr)).map fun e => '.' :: (ds ++ e) else _) = _ ↔ _
    constructor
    · intro h
      split at h
      · rename_i hc
        subst hc
        rw [Option.bind_eq_some_iff] at h
        obtain ⟨ds, h1, h2⟩ := h
        rw [Option.map_eq_some_iff] at h2
        obtain ⟨e, h3, rfl⟩ := h2
        exact ⟨'.' :: ds, '.' :: r.takeWhile digitOr, e, r.dropWhile digitOr, rfl, by rw [List.cons_append, List.takeWhile_append_dropWhile],
          .inr ⟨ds, _, rfl, rfl, digits10_iff.1 h1⟩, tomlExponent_iff.1 h3, .inl (by simp)⟩
      · exact ⟨[], [], t, c :: r, rfl, rfl, .inl ⟨rfl, rfl⟩, tomlExponent_iff.1 h, .inr (by simp)⟩
    · rintro ⟨f, y, e, z, rfl, hs, hf, he, hne⟩
      rcases hf with ⟨rfl, rfl⟩ | ⟨ds, y, rfl, rfl, hg⟩
      · rw [List.nil_append] at hs ⊢
        subst hs
        have := (exp_begins he).2
        rw [if_neg (fun h => this (by rw [h]; rfl))]
        exact tomlExponent_iff.2 he
      · rw [List.cons_append] at hs
        obtain ⟨rfl, rfl⟩ := List.cons.inj hs
        rw [if_pos rfl, takeWhile_append_begins (grouped_digitOr hg) (exp_begins he).1,
          dropWhile_append_begins (grouped_digitOr hg) (exp_begins he).1, digits10_iff.2 hg, tomlExponent_iff.2 he]
        rfl

/-- Floats are those of the grammar. -/
theorem tomlReadFloat_iff {S : TomlScalars} {s t : Str} : tomlReadFloat S s = some t ↔ TomlFloatText S t s := by
  unfold tomlReadFloat
  change (if (tomlSign s).2 = c!"inf" then _ else if (tomlSign s).2 = c!"nan" then _ else
    (tomlDecimal ((tomlSign s).2.takeWhile digitOr)).bind fun ds => (tomlFraction ((tomlSign s).2.dropWhile digitOr)).bind fun f =>
      S.float ((if (tomlSign s).1 then ['-'] else []) ++ (ds ++ f))) = _ ↔ _
  constructor
  · intro h
    obtain ⟨sg, h1, h2⟩ := tomlSign_inv s
    split at h
    · rename_i hi
      cases h
      rw [hi] at h1
      have := TomlFloatText.inf (S := S) h2
      rwa [← h1] at this
    · split at h
      · rename_i hi
        cases h
        rw [hi] at h1
        rw [h1]
        exact .nan h2
      · rw [Option.bind_eq_some_iff] at h
        obtain ⟨ds, h3, h4⟩ := h
        rw [Option.bind_eq_some_iff] at h4
        obtain ⟨fe, h5, h6⟩ := h4
        obtain ⟨f, y, e, z, rfl, h7, h8, h9, h10⟩ := tomlFraction_iff.1 h5
        have hs : s = sg ++ ((tomlSign s).2.takeWhile digitOr ++ (y ++ z)) := by
          rw [← h7, List.takeWhile_append_dropWhile]
          exact h1
        have := TomlFloatText.number h2 (tomlDecimal_iff.1 h3) h8 h9 h10 h6
        rwa [← hs] at this
  · intro h
    cases h with
    | @number kept sg ds x f y e z _ hs hd hf he hne h =>
      obtain ⟨c, r, rfl, hc, _⟩ := dec_head hd
      obtain ⟨g1, g2⟩ := digit_signless hc (r ++ (y ++ z))
      obtain ⟨h1, h2⟩ := tomlSign_of hs g1 g2
      rw [← List.cons_append] at h1 h2
      have hb : NotBegins digitOr (y ++ z) := by
        rcases hf with ⟨rfl, rfl⟩ | ⟨ds, y, rfl, rfl, hg⟩
        · exact (exp_begins he).1
        · exact begins_cons.2 (by decide)
      rw [h1, ← h2]
      rw [if_neg (fun h => by rw [(List.cons.inj h).1] at hc; exact absurd hc (by decide)),
        if_neg (fun h => by rw [(List.cons.inj h).1] at hc; exact absurd hc (by decide)),
        takeWhile_append_begins (grouped_digitOr hd.1) hb, dropWhile_append_begins (grouped_digitOr hd.1) hb,
        tomlDecimal_iff.2 hd, Option.bind_some, tomlFraction_iff.2 ⟨f, y, e, z, rfl, rfl, hf, he, hne⟩, Option.bind_some]
      exact h
    | inf hs =>
      obtain ⟨h1, h2⟩ := tomlSign_of (x := c!"inf") hs (fun h => absurd (Option.some.inj h) (by decide)) (fun h => absurd (Option.some.inj h) (by decide))
      rw [h1, ← h2, if_pos rfl]
    | nan hs =>
      obtain ⟨h1, h2⟩ := tomlSign_of (x := c!"nan") hs (fun h => absurd (Option.some.inj h) (by decide)) (fun h => absurd (Option.some.inj h) (by decide))
      rw [h1, if_neg (by decide), if_pos rfl]

end Rops
