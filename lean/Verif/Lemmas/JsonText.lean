import Verif.Spec.JsonText
import Verif.Lemmas.Tree
import Verif.Lemmas.DocFormats
import Verif.Props.Values
/-!
# Reading and writing JSON
-/

namespace Rops
open Spec

/-! ## White space -/

theorem jsonSpace_iff {c : Char} : jsonSpace c = true ↔ c = ' ' ∨ c = '\t' ∨ c = '\n' ∨ c = '\r' := by
  simp only [jsonSpace, Bool.or_eq_true, decide_eq_true_eq]
  constructor
  · rintro (((h | h) | h) | h) <;> simp [h]
  · rintro (h | h | h | h) <;> simp [h]

theorem skipSpace_append {w : Str} (hw : JsonWs w) (s : Str) : skipSpace (w ++ s) = skipSpace s := by
  induction w with
  | nil => rfl
  | cons c r ih =>
    have hc : jsonSpace c = true := jsonSpace_iff.2 (hw c (.head _))
    show List.dropWhile jsonSpace (c :: (r ++ s)) = _
    rw [List.dropWhile_cons, if_pos hc]
    exact ih fun x hx => hw x (.tail _ hx)

theorem skipSpace_cons {c : Char} (hc : jsonSpace c = false) (r : Str) : skipSpace (c :: r) = c :: r := by
  show List.dropWhile jsonSpace (c :: r) = _
  rw [List.dropWhile_cons, if_neg (by simp [hc])]

theorem skipSpace_spec (s : Str) : ∃ w, JsonWs w ∧ s = w ++ skipSpace s := by
  induction s with
  | nil => exact ⟨[], (fun _ h => nomatch h), rfl⟩
  | cons c r ih =>
    cases hc : jsonSpace c with
    | false => exact ⟨[], (fun _ h => nomatch h), by rw [skipSpace_cons hc]; rfl⟩
    | true =>
      obtain ⟨w, hw, e⟩ := ih
      refine ⟨c :: w, fun x hx => ?_, ?_⟩
      · rcases List.mem_cons.1 hx with rfl | hx
        · exact jsonSpace_iff.1 hc
        · exact hw x hx
      · have : skipSpace (c :: r) = skipSpace r := by
          show List.dropWhile jsonSpace (c :: r) = _
          rw [List.dropWhile_cons, if_pos hc]; rfl
        rw [this]
        exact congrArg (c :: ·) e

theorem skipSpace_ws {w : Str} (hw : JsonWs w) : skipSpace w = [] := by
  have := skipSpace_append hw []
  rwa [List.append_nil] at this

theorem jsonWs_nil : JsonWs [] := fun _ h => nomatch h

theorem jsonWs_append {a b : Str} (ha : JsonWs a) (hb : JsonWs b) : JsonWs (a ++ b) := fun c h =>
  (List.mem_append.1 h).elim (ha c) (hb c)

/-! ## Strings -/

theorem hexVal_iff {c : Char} {v : Nat} : hexVal c = some v ↔ HexDigit c v := by
  have e1 : c = Char.ofNat c.toNat := (Char.ofNat_toNat c).symm
  have t : ∀ n, n < 128 → (Char.ofNat n).toNat = n := by decide
  unfold hexVal HexDigit
  constructor
  · intro h
    split at h
    · rename_i hc
      cases h
      exact .inl ⟨by omega, by rw [show 48 + (c.toNat - 48) = c.toNat by omega]; exact e1⟩
    · split at h
      · rename_i hc
        cases h
        exact .inr ⟨by omega, by omega, .inl (by rw [show 55 + (c.toNat - 55) = c.toNat by omega]; exact e1)⟩
      · split at h
        · rename_i hc
          cases h
          exact .inr ⟨by omega, by omega, .inr (by rw [show 87 + (c.toNat - 87) = c.toNat by omega]; exact e1)⟩
        · cases h
  · rintro (⟨hv, rfl⟩ | ⟨h1, h2, rfl | rfl⟩)
    · rw [t _ (by omega), if_pos (by omega)]; congr 1; omega
    · rw [t _ (by omega), if_neg (by omega), if_pos (by omega)]; congr 1; omega
    · rw [t _ (by omega), if_neg (by omega), if_neg (by omega), if_pos (by omega)]; congr 1; omega

/-- What the reader of strings goes on with. -/
def afterStep (st : StrStep) (r : Str) : Option (Str × Str) :=
  match st with
  | .done => some ([], r)
  | .bad => none
  | .more out st' => match readChars st' r with
    | none => none
    | some (s, r) => some (out ++ s, r)

theorem readChars_cons (st : StrState) (c : Char) (r : Str) : readChars st (c :: r) = afterStep (strStep st c) r := rfl

theorem afterStep_nil (st : StrState) (r : Str) : afterStep (.more [] st) r = readChars st r := by
  unfold afterStep
  dsimp only
  split
  · rename_i h; rw [h]
  · rename_i h; rw [h]; rfl

theorem readChars_hex4 {h : Str} {v : Nat} (hh : Hex4 h v) (high : Option Nat) (r : Str) :
    readChars (.hex 0 0 high) (h ++ r) = afterStep (unicodeStep v high) r := by
  obtain ⟨a, b, c, d, w, x, y, z, rfl, ha, hb, hc, hd, rfl⟩ := hh
  rw [← hexVal_iff] at ha hb hc hd
  simp only [List.cons_append, List.nil_append, readChars_cons, strStep, ha]
  simp only [Nat.reduceAdd, Nat.reduceEqDiff, if_false, if_true, afterStep_nil, readChars_cons, strStep, hb, hc, hd]
  congr 2
  omega

theorem readChars_hex4_inv {s : Str} {high : Option Nat} {p : Str × Str} (h : readChars (.hex 0 0 high) s = some p) :
    ∃ x v r, Hex4 x v ∧ s = x ++ r ∧ afterStep (unicodeStep v high) r = some p := by
  match s, h with
  | [], h => cases h
  | a :: s, h =>
    rw [readChars_cons] at h
    unfold strStep at h
    dsimp only at h
    cases ha : hexVal a with
    | none => rw [ha] at h; cases h
    | some w =>
    rw [ha] at h
    simp only [Nat.reduceAdd, Nat.reduceEqDiff, if_false, afterStep_nil, Nat.zero_mul, Nat.zero_add] at h
    match s, h with
    | [], h => cases h
    | b :: s, h =>
    rw [readChars_cons] at h
    unfold strStep at h
    dsimp only at h
    cases hb : hexVal b with
    | none => rw [hb] at h; cases h
    | some x =>
    rw [hb] at h
    simp only [Nat.reduceAdd, Nat.reduceEqDiff, if_false, afterStep_nil] at h
    match s, h with
    | [], h => cases h
    | c :: s, h =>
    rw [readChars_cons] at h
    unfold strStep at h
    dsimp only at h
    cases hc : hexVal c with
    | none => rw [hc] at h; cases h
    | some y =>
    rw [hc] at h
    simp only [Nat.reduceAdd, Nat.reduceEqDiff, if_false, afterStep_nil] at h
    match s, h with
    | [], h => cases h
    | d :: s, h =>
    rw [readChars_cons] at h
    unfold strStep at h
    dsimp only at h
    cases hd : hexVal d with
    | none => rw [hd] at h; cases h
    | some z =>
    rw [hd] at h
    simp only [if_true] at h
    rw [hexVal_iff] at ha hb hc hd
    refine ⟨[a, b, c, d], _, s, ⟨a, b, c, d, w, x, y, z, rfl, ha, hb, hc, hd, rfl⟩, rfl, ?_⟩
    rw [← h]
    congr 2
    omega

theorem simpleEscape_iff {l x : Char} : simpleEscape l = some x ↔ ∃ n, (l, n) ∈ escapeLetters ∧ x = Char.ofNat n := by
  constructor
  · intro h
    unfold simpleEscape at h
    repeat' split at h
    all_goals first | (rename_i hl; subst hl; cases h; simp [escapeLetters]; done) | (cases h; done)
  · rintro ⟨n, h, rfl⟩
    simp only [escapeLetters, List.mem_cons, Prod.mk.injEq, List.not_mem_nil, or_false] at h
    rcases h with ⟨rfl, rfl⟩ | ⟨rfl, rfl⟩ | ⟨rfl, rfl⟩ | ⟨rfl, rfl⟩ | ⟨rfl, rfl⟩ | ⟨rfl, rfl⟩ | ⟨rfl, rfl⟩ | ⟨rfl, rfl⟩ <;> decide

theorem afterStep_one {c : Char} {s r rest : Str} (h : readChars .plain r = some (s, rest)) :
    afterStep (.more [c] .plain) r = some (c :: s, rest) := by
  unfold afterStep
  simp only [h]
  rfl

theorem readChars_char {c : Char} {x : Str} (hc : JsonChar c x) {s r rest : Str} (h : readChars .plain r = some (s, rest)) :
    readChars .plain (x ++ r) = some (c :: s, rest) := by
  cases hc with
  | plain h1 h2 h3 =>
    show readChars .plain (c :: r) = _
    rw [readChars_cons]
    simp only [strStep, if_neg h2, if_neg h3, if_neg (Nat.not_lt.2 h1)]
    exact afterStep_one h
  | @letter l n hl =>
    have hu : l ≠ 'u' := by
      rintro rfl
      simp [escapeLetters] at hl
    show readChars .plain ('\\' :: l :: r) = _
    rw [readChars_cons]
    simp only [strStep, show ¬ ('\\' = '"') by decide, if_false, if_true, afterStep_nil]
    rw [readChars_cons]
    simp only [strStep, if_neg hu, simpleEscape_iff.2 ⟨n, hl, rfl⟩]
    exact afterStep_one h
  | @unicode h' v hh hv =>
    show readChars .plain ('\\' :: 'u' :: (h' ++ r)) = _
    rw [readChars_cons]
    simp only [strStep, show ¬ ('\\' = '"') by decide, if_false, if_true, afterStep_nil]
    rw [readChars_cons]
    simp only [strStep, if_true, afterStep_nil]
    rw [readChars_hex4 hh]
    simp only [unicodeStep]
    rw [if_neg (by omega), if_neg (by omega)]
    exact afterStep_one h
  | @pair h' l v w hh hl h1 h2 h3 h4 =>
    show readChars .plain ('\\' :: 'u' :: ((h' ++ '\\' :: 'u' :: l) ++ r)) = _
    rw [readChars_cons]
    simp only [strStep, show ¬ ('\\' = '"') by decide, if_false, if_true, afterStep_nil]
    rw [readChars_cons]
    simp only [strStep, if_true, afterStep_nil]
    rw [List.append_assoc, readChars_hex4 hh]
    simp only [unicodeStep]
    rw [if_neg (by omega), if_pos (by omega), afterStep_nil]
    rw [List.cons_append, List.cons_append, readChars_cons]
    simp only [strStep, if_true, afterStep_nil]
    rw [readChars_cons]
    simp only [strStep, if_true, afterStep_nil]
    rw [readChars_hex4 hl]
    simp only [unicodeStep]
    rw [if_pos (by omega), Nat.mul_comm (v - 0xD800)]
    exact afterStep_one h

theorem readChars_complete {s y : Str} (h : JsonChars s y) (r : Str) : readChars .plain (y ++ '"' :: r) = some (s, r) := by
  induction h with
  | nil => rfl
  | cons hc _ ih =>
    rw [List.append_assoc]
    exact readChars_char hc ih

theorem afterStep_plain_inv {c : Char} {r s rest : Str} (h : afterStep (.more [c] .plain) r = some (s, rest)) :
    ∃ s', s = c :: s' ∧ readChars .plain r = some (s', rest) := by
  unfold afterStep at h
  dsimp only at h
  split at h
  · cases h
  · rename_i a b hs
    cases h
    exact ⟨a, rfl, hs⟩

theorem readChars_sound : ∀ (n : Nat) {x s r : Str}, x.length ≤ n → readChars .plain x = some (s, r) →
    ∃ y, JsonChars s y ∧ x = y ++ '"' :: r := by
  intro n
  induction n with
  | zero =>
    intro x s r hn h
    rw [List.length_eq_zero_iff.1 (Nat.le_zero.1 hn)] at h
    cases h
  | succ n ih =>
    intro x s r hn h
    match x, hn, h with
    | [], _, h => cases h
    | c :: x, hn, h =>
    rw [List.length_cons] at hn
    rw [readChars_cons] at h
    unfold strStep at h
    dsimp only at h
    have go : ∀ {c : Char} {p x' : Str}, JsonChar c p → x'.length ≤ n →
        afterStep (.more [c] .plain) x' = some (s, r) → ∃ y, JsonChars s y ∧ p ++ x' = y ++ '"' :: r := by
      intro c p x' hc hl ha
      obtain ⟨s', rfl, h'⟩ := afterStep_plain_inv ha
      obtain ⟨y, hy, rfl⟩ := ih hl h'
      exact ⟨p ++ y, .cons hc hy, by rw [List.append_assoc]⟩
    split at h
    · rename_i hc
      subst hc
      cases h
      exact ⟨[], .nil, rfl⟩
    · rename_i hq
      split at h
      · rename_i hc
        subst hc
        rw [afterStep_nil] at h
        match x, hn, h with
        | [], _, h => cases h
        | l :: x, hn, h =>
        rw [List.length_cons] at hn
        rw [readChars_cons] at h
        unfold strStep at h
        dsimp only at h
        split at h
        · rename_i hu
          subst hu
          rw [afterStep_nil] at h
          obtain ⟨a, v, x', ha, rfl, h'⟩ := readChars_hex4_inv h
          clear h
          have h := h'
          clear h'
          rw [List.length_append] at hn
          unfold unicodeStep at h
          dsimp only at h
          split at h
          · cases h
          · rename_i hv
            split at h
            · rename_i hv2
              rw [afterStep_nil] at h
              match x', hn, h with
              | [], _, h => cases h
              | c1 :: x', hn, h =>
              rw [List.length_cons] at hn
              rw [readChars_cons] at h
              unfold strStep at h
              dsimp only at h
              split at h
              · rename_i hc1
                subst hc1
                rw [afterStep_nil] at h
                match x', hn, h with
                | [], _, h => cases h
                | c2 :: x', hn, h =>
                rw [List.length_cons] at hn
                rw [readChars_cons] at h
                unfold strStep at h
                dsimp only at h
                split at h
                · rename_i hc2
                  subst hc2
                  rw [afterStep_nil] at h
                  obtain ⟨b, w, x', hb, rfl, h'⟩ := readChars_hex4_inv h
                  clear h
                  have h := h'
                  clear h'
                  rw [List.length_append] at hn
                  unfold unicodeStep at h
                  dsimp only at h
                  split at h
                  · rename_i hw
                    have hp : JsonChar (Char.ofNat (0x10000 + (v - 0xD800) * 0x400 + (w - 0xDC00)))
                        ('\\' :: 'u' :: (a ++ '\\' :: 'u' :: b)) := by
                      rw [Nat.mul_comm]
                      exact .pair ha hb (by omega) (by omega) (by omega) (by omega)
                    have := go hp (by omega) h
                    simpa [List.append_assoc] using this
                  · cases h
                · cases h
              · cases h
            · rename_i hv2
              have := go (.unicode ha (by omega)) (by omega) h
              simpa using this
        · split at h
          · rename_i hx
            obtain ⟨m, hm, rfl⟩ := simpleEscape_iff.1 hx
            exact go (.letter hm) (by omega) h
          · cases h
      · rename_i hb
        split at h
        · cases h
        · rename_i hn32
          exact go (.plain (by omega) hq hb) (by omega) h

theorem jsonString_read {s q : Str} (h : JsonString s q) (r : Str) :
    ∃ x, q ++ r = '"' :: x ∧ readChars .plain x = some (s, r) := by
  obtain ⟨y, hy, rfl⟩ := h
  exact ⟨y ++ '"' :: r, by simp, readChars_complete hy r⟩

/-! ## Numbers -/

theorem digits_iff {s : Str} : Digits s ↔ s ≠ [] ∧ ∀ c ∈ s, c.isDigit = true := by
  unfold Digits
  simp only [Props.decimal_iff, parseNat]
  constructor
  · rintro ⟨n, h⟩
    split at h
    · rename_i hc
      exact ⟨hc.1, fun c hm => List.all_eq_true.1 hc.2 c hm⟩
    · cases h
  · rintro ⟨h1, h2⟩
    exact ⟨_, if_pos ⟨h1, List.all_eq_true.2 h2⟩⟩

theorem decimal_value {s : Str} {n : Nat} (h : Decimal s n) : n = Nat.ofDigitChars 10 s 0 := by
  rw [Props.decimal_iff] at h
  unfold parseNat at h
  split at h
  · cases h; rfl
  · cases h

theorem decimal_of_digits {s : Str} (h : Digits s) : Decimal s (Nat.ofDigitChars 10 s 0) := by
  obtain ⟨n, hn⟩ := h
  rwa [← decimal_value hn]

/-- The rest does not continue a number. -/
def Stops (r : Str) : Prop := ∀ c, r.head? = some c → c.isDigit = false ∧ c ≠ '.' ∧ c ≠ 'e' ∧ c ≠ 'E'

/-- The rest does not start with a digit. -/
def NoDigit (r : Str) : Prop := ∀ c, r.head? = some c → c.isDigit = false

theorem scanDigits_append {ds r : Str} (h : ∀ c ∈ ds, c.isDigit = true) (hr : NoDigit r) : scanDigits (ds ++ r) = (ds, r) := by
  unfold scanDigits
  have h0 : r.takeWhile Char.isDigit = [] ∧ r.dropWhile Char.isDigit = r := by
    cases r with
    | nil => exact ⟨rfl, rfl⟩
    | cons c r =>
      have := hr c rfl
      simp [List.takeWhile_cons, List.dropWhile_cons, this]
  rw [List.takeWhile_append_of_pos h, List.dropWhile_append_of_pos h, h0.1, h0.2, List.append_nil]

theorem scanDigits_spec {s ds r : Str} (h : scanDigits s = (ds, r)) : (∀ c ∈ ds, c.isDigit = true) ∧ s = ds ++ r := by
  unfold scanDigits at h
  cases h
  exact ⟨fun c hc => (List.all_eq_true.1 (List.all_takeWhile (p := Char.isDigit) (l := s))) c hc, List.takeWhile_append_dropWhile.symm⟩

theorem scanInt_iff {s ds r : Str} : scanInt s = some (ds, r) ↔ scanDigits s = (ds, r) ∧ ds ≠ [] ∧ (ds = ['0'] ∨ ds.head? ≠ some '0') := by
  unfold scanInt
  split
  · rename_i h
    rw [h]
    constructor
    · intro h'; cases h'
    · rintro ⟨h1, h2, _⟩; cases h1; exact absurd rfl h2
  · rename_i a b c h
    rw [h]
    constructor
    · intro h'; cases h'
    · rintro ⟨h1, _, h3 | h3⟩
      · cases h1; cases h3
      · cases h1; exact absurd rfl h3
  · rename_i ds' r' h1 h2 h
    rw [h]
    constructor
    · intro h'
      cases h'
      refine ⟨rfl, fun e => h1 e, ?_⟩
      match ds, h, h2 with
      | [], h, _ => exact .inr (by simp)
      | c :: t, h, h2 =>
        by_cases hc : c = '0'
        · subst hc
          match t, h, h2 with
          | [], _, _ => exact .inl rfl
          | d :: t, h, h2 => exact absurd rfl (h2 _ _)
        · exact .inr (by simpa using hc)
    · rintro ⟨h', _⟩
      cases h'
      rfl

theorem noDigit_of_head {c : Char} (h : c.isDigit = false) (r : Str) : NoDigit (c :: r) := by
  intro x hx
  cases hx
  exact h

theorem scanFrac_append {frac r : Str} (h : JsonFrac frac) (hr : NoDigit r) (hd : frac = [] → r.head? ≠ some '.') :
    scanFrac (frac ++ r) = some (frac, r) := by
  rcases h with rfl | ⟨f, hf, rfl⟩
  · show scanFrac r = _
    unfold scanFrac
    split
    · exact absurd rfl (hd rfl)
    · rfl
  · obtain ⟨h1, h2⟩ := digits_iff.1 hf
    show scanFrac ('.' :: (f ++ r)) = _
    simp only [scanFrac, scanDigits_append h2 hr]

theorem scanFrac_sound {s frac r : Str} (h : scanFrac s = some (frac, r)) : JsonFrac frac ∧ s = frac ++ r := by
  unfold scanFrac at h
  split at h
  · split at h
    · cases h
    · rename_i ds r' hne hd
      cases h
      obtain ⟨h1, h2⟩ := scanDigits_spec hd
      exact ⟨.inr ⟨ds, digits_iff.2 ⟨fun e => hne e, h1⟩, rfl⟩, by rw [h2]; rfl⟩
  · cases h
    exact ⟨.inl rfl, rfl⟩

theorem scanSign_append {sg r : Str} (h : sg = [] ∨ sg = ['+'] ∨ sg = ['-']) {c : Char} (hc : c.isDigit = true) :
    scanSign (sg ++ c :: r) = (sg, c :: r) := by
  rcases h with rfl | rfl | rfl
  · show scanSign (c :: r) = _
    unfold scanSign
    split
    · rename_i e; cases e; exact absurd hc (by decide)
    · rename_i e; cases e; exact absurd hc (by decide)
    · rfl
  · rfl
  · rfl

theorem scanSign_spec (s : Str) : ((scanSign s).1 = [] ∨ (scanSign s).1 = ['+'] ∨ (scanSign s).1 = ['-']) ∧
    s = (scanSign s).1 ++ (scanSign s).2 := by
  unfold scanSign
  split
  · exact ⟨.inr (.inl rfl), rfl⟩
  · exact ⟨.inr (.inr rfl), rfl⟩
  · exact ⟨.inl rfl, rfl⟩

theorem scanExp_append {exp r : Str} (h : JsonExp exp) (hr : Stops r) : scanExp (exp ++ r) = some (exp, r) := by
  rcases h with rfl | ⟨e, sg, f, he, hs, hf, rfl⟩
  · show scanExp r = _
    cases r with
    | nil => rfl
    | cons c r =>
      have := hr c rfl
      simp only [scanExp]
      rw [if_neg (fun h => h.elim this.2.2.1 this.2.2.2)]
  · obtain ⟨h1, h2⟩ := digits_iff.1 hf
    obtain ⟨c, f, rfl⟩ := List.exists_cons_of_ne_nil h1
    have e1 : e :: (sg ++ c :: f) ++ r = e :: (sg ++ c :: (f ++ r)) := by simp
    rw [e1]
    simp only [scanExp, if_pos he, scanSign_append hs (h2 c (.head _))]
    rw [show c :: (f ++ r) = (c :: f) ++ r from rfl, scanDigits_append h2 (fun x hx => (hr x hx).1)]

theorem scanExp_sound {s exp r : Str} (h : scanExp s = some (exp, r)) : JsonExp exp ∧ s = exp ++ r := by
  unfold scanExp at h
  split at h
  · cases h; exact ⟨.inl rfl, rfl⟩
  · rename_i c s
    split at h
    · rename_i hc
      split at h
      · cases h
      · rename_i ds r' hne hd
        cases h
        obtain ⟨h1, h2⟩ := scanDigits_spec hd
        obtain ⟨h3, h4⟩ := scanSign_spec s
        refine ⟨.inr ⟨c, _, ds, hc, h3, digits_iff.2 ⟨fun e => hne e, h1⟩, rfl⟩, ?_⟩
        rw [List.cons_append, List.append_assoc, ← h2, ← h4]
    · cases h
      exact ⟨.inl rfl, rfl⟩

theorem noDigit_exp {exp r : Str} (h : JsonExp exp) (hr : Stops r) : NoDigit (exp ++ r) ∧ (exp ++ r).head? ≠ some '.' := by
  rcases h with rfl | ⟨e, sg, f, he, hs, hf, rfl⟩
  · refine ⟨fun x hx => (hr x hx).1, fun hx => (hr '.' hx).2.1 rfl⟩
  · rcases he with rfl | rfl
    · exact ⟨noDigit_of_head (by decide) _, by simp⟩
    · exact ⟨noDigit_of_head (by decide) _, by simp⟩

theorem noDigit_frac {frac r : Str} (h : JsonFrac frac) (hr : NoDigit r) : NoDigit (frac ++ r) := by
  rcases h with rfl | ⟨f, _, rfl⟩
  · exact hr
  · exact noDigit_of_head (by decide) _

/-- What is read for a number whose parts are known. -/
def numberOf (J : JsonFloats) (negative : Bool) (ds frac exp : Str) : Option Number :=
  match (if frac = [] ∧ exp = [] then integerOf negative ds else none) with
  | some n => some n
  | none => match J.read ((if negative then ['-'] else []) ++ ds ++ frac ++ exp) with
    | some f => some (.float f)
    | none => none

theorem readUnsigned_append {J : JsonFloats} {ds frac exp r : Str} {n : Nat} (h1 : JsonInt ds n) (h2 : JsonFrac frac)
    (h3 : JsonExp exp) (hr : Stops r) (negative : Bool) :
    readUnsigned J negative (ds ++ (frac ++ (exp ++ r))) = (numberOf J negative ds frac exp).map fun v => (v, r) := by
  obtain ⟨a, b⟩ := noDigit_exp h3 hr
  obtain ⟨c, d⟩ := digits_iff.1 ⟨n, h1.1⟩
  unfold readUnsigned
  rw [scanInt_iff.2 ⟨scanDigits_append d (noDigit_frac h2 a), c, h1.2⟩]
  dsimp only
  rw [scanFrac_append h2 a (fun _ => b)]
  dsimp only
  rw [scanExp_append h3 hr]
  dsimp only
  unfold numberOf
  cases (if frac = [] ∧ exp = [] then integerOf negative ds else none) with
  | some v => rfl
  | none =>
    dsimp only
    cases J.read ((if negative then ['-'] else []) ++ ds ++ frac ++ exp) <;> rfl

theorem readUnsigned_sound {J : JsonFloats} {negative : Bool} {s r : Str} {v : Number} (h : readUnsigned J negative s = some (v, r)) :
    ∃ ds n frac exp, JsonInt ds n ∧ JsonFrac frac ∧ JsonExp exp ∧ s = ds ++ (frac ++ (exp ++ r)) ∧
      numberOf J negative ds frac exp = some v := by
  unfold readUnsigned at h
  split at h
  · cases h
  · rename_i ds r1 hi
    split at h
    · cases h
    · rename_i frac r2 hf
      split at h
      · cases h
      · rename_i exp r3 he
        obtain ⟨i1, i2, i3⟩ := scanInt_iff.1 hi
        obtain ⟨i4, rfl⟩ := scanDigits_spec i1
        obtain ⟨f1, rfl⟩ := scanFrac_sound hf
        obtain ⟨e1, rfl⟩ := scanExp_sound he
        have key : numberOf J negative ds frac exp = some v ∧ r3 = r := by
          unfold numberOf
          split at h
          · rename_i hx
            cases h
            rw [hx]; exact ⟨rfl, rfl⟩
          · rename_i hx
            rw [hx]
            dsimp only
            split at h
            · rename_i hy
              cases h
              rw [hy]; exact ⟨rfl, rfl⟩
            · cases h
        obtain ⟨k1, rfl⟩ := key
        exact ⟨ds, _, frac, exp, ⟨decimal_of_digits (digits_iff.2 ⟨i2, i4⟩), i3⟩, f1, e1, rfl, k1⟩

theorem int64_ofInt_toInt {n : Nat} (h : n ≤ 2 ^ 63) : (Int64.ofInt (-(n : Int))).toInt = -n := by
  rw [Int64.toInt_ofInt, Int.bmod_eq_of_le (by simp [Int64.size]; omega) (by simp [Int64.size]; omega)]

theorem int_head {ds : Str} {n : Nat} (h : JsonInt ds n) : ∃ c r, ds = c :: r ∧ c.isDigit = true := by
  obtain ⟨h1, h2⟩ := digits_iff.1 ⟨n, h.1⟩
  obtain ⟨c, r, rfl⟩ := List.exists_cons_of_ne_nil h1
  exact ⟨c, r, rfl, h2 c (.head _)⟩

theorem readNumber_plain (J : JsonFloats) {c : Char} (hc : c.isDigit = true) (r : Str) :
    readNumber J (c :: r) = readUnsigned J false (c :: r) := by
  unfold readNumber
  split
  · rename_i e; cases e; exact absurd hc (by decide)
  · rfl

theorem readNumber_complete {J : JsonFloats} {v : Number} {x : Str} (h : JsonNumber J v x) {r : Str} (hr : Stops r) :
    readNumber J (x ++ r) = some (v, r) := by
  cases h with
  | @nat ds n u hi hu =>
    obtain ⟨c, ds, rfl, hc⟩ := int_head hi
    rw [List.cons_append, readNumber_plain J hc]
    have := readUnsigned_append (J := J) hi (.inl rfl) (.inl rfl) hr false
    simp only [List.nil_append, List.cons_append] at this
    rw [this]
    have hn := decimal_value hi.1
    unfold numberOf integerOf
    simp only [and_self, if_true, ← hn, Bool.false_eq_true, if_false]
    have hlt : ¬ 2 ^ 64 ≤ n := by have := u.toNat_lt; omega
    rw [if_neg hlt]
    dsimp only
    rw [← hu, UInt64.ofNat_toNat]
    rfl
  | @negative ds n i hi h0 hu =>
    show readNumber J ('-' :: (ds ++ r)) = _
    have := readUnsigned_append (J := J) hi (.inl rfl) (.inl rfl) hr true
    simp only [List.nil_append] at this
    show readUnsigned J true (ds ++ r) = _
    rw [this]
    have hn := decimal_value hi.1
    have hle : n ≤ 2 ^ 63 := by have := i.le_toInt; omega
    unfold numberOf integerOf
    simp only [and_self, if_true, ← hn]
    rw [if_neg (by omega)]
    have : Int64.ofInt (-(n : Int)) = i := by
      apply Int64.toInt_inj.1
      rw [int64_ofInt_toInt hle, hu]
    rw [this]
    rfl
  | @float sg ds frac exp f n hs hi hf he hbig hread =>
    have hn := decimal_value hi.1
    rcases hs with rfl | rfl
    · obtain ⟨c, ds, rfl, hc⟩ := int_head hi
      have := readUnsigned_append (J := J) hi hf he hr false
      rw [show [] ++ c :: ds ++ frac ++ exp ++ r = c :: ds ++ (frac ++ (exp ++ r)) by simp]
      rw [List.cons_append, readNumber_plain J hc, ← List.cons_append, this]
      unfold numberOf
      simp only [Bool.false_eq_true, if_false]
      rw [hread]
      have : (if frac = [] ∧ exp = [] then integerOf false (c :: ds) else none) = none := by
        split
        · rename_i hfe
          unfold integerOf
          simp only [Bool.false_eq_true, if_false, ← hn]
          rw [if_pos ((hbig hfe.1 hfe.2).1 rfl)]
        · rfl
      rw [this]
      rfl
    · have := readUnsigned_append (J := J) hi hf he hr true
      rw [show ['-'] ++ ds ++ frac ++ exp ++ r = '-' :: (ds ++ (frac ++ (exp ++ r))) by simp]
      show readUnsigned J true _ = _
      rw [this]
      unfold numberOf
      simp only [if_true]
      rw [hread]
      have : (if frac = [] ∧ exp = [] then integerOf true ds else none) = none := by
        split
        · rename_i hfe
          unfold integerOf
          simp only [if_true, ← hn]
          rw [if_pos ((hbig hfe.1 hfe.2).2 rfl)]
        · rfl
      rw [this]
      rfl

theorem numberOf_sound {J : JsonFloats} {negative : Bool} {ds frac exp : Str} {n : Nat} {v : Number} (hi : JsonInt ds n)
    (hf : JsonFrac frac) (he : JsonExp exp) (h : numberOf J negative ds frac exp = some v) :
    JsonNumber J v ((if negative then ['-'] else []) ++ ds ++ frac ++ exp) := by
  have hn := decimal_value hi.1
  unfold numberOf at h
  split at h
  · rename_i w hw
    cases h
    split at hw
    · rename_i hfe
      obtain ⟨rfl, rfl⟩ := hfe
      simp only [List.append_nil]
      unfold integerOf at hw
      rw [← hn] at hw
      cases negative with
      | true =>
        simp only [if_true] at hw ⊢
        split at hw
        · cases hw
        · rename_i hb
          cases hw
          exact .negative hi (by omega) (int64_ofInt_toInt (by omega))
      | false =>
        simp only [Bool.false_eq_true, if_false] at hw ⊢
        split at hw
        · cases hw
        · rename_i hb
          cases hw
          refine .nat hi ?_
          rw [UInt64.toNat_ofNat']
          omega
    · cases hw
  · rename_i hw
    split at h
    · rename_i f hr
      cases h
      refine .float (by cases negative <;> simp) hi hf he (fun h1 h2 => ?_) hr
      rw [if_pos ⟨h1, h2⟩] at hw
      unfold integerOf at hw
      rw [← hn] at hw
      cases negative with
      | true =>
        simp only [if_true] at hw ⊢
        split at hw
        · rename_i hb; exact ⟨(fun h => nomatch h), fun _ => hb⟩
        · cases hw
      | false =>
        simp only [Bool.false_eq_true, if_false] at hw ⊢
        split at hw
        · rename_i hb; exact ⟨fun _ => hb, fun h => nomatch h⟩
        · cases hw
    · cases h

theorem readNumber_sound {J : JsonFloats} {s r : Str} {v : Number} (h : readNumber J s = some (v, r)) :
    ∃ x, JsonNumber J v x ∧ s = x ++ r := by
  unfold readNumber at h
  split at h
  · obtain ⟨ds, n, frac, exp, h1, h2, h3, rfl, h4⟩ := readUnsigned_sound h
    exact ⟨_, numberOf_sound h1 h2 h3 h4, by simp⟩
  · obtain ⟨ds, n, frac, exp, h1, h2, h3, rfl, h4⟩ := readUnsigned_sound h
    exact ⟨_, numberOf_sound h1 h2 h3 h4, by simp⟩

theorem number_head {J : JsonFloats} {v : Number} {x : Str} (h : JsonNumber J v x) :
    ∃ c r, x = c :: r ∧ (c = '-' ∨ c.isDigit = true) := by
  cases h with
  | nat hi hu =>
    obtain ⟨c, ds, rfl, hc⟩ := int_head hi
    exact ⟨c, ds, rfl, .inr hc⟩
  | negative hi h0 hu => exact ⟨_, _, rfl, .inl rfl⟩
  | float hs hi hf he hbig hread =>
    rcases hs with rfl | rfl
    · obtain ⟨c, ds, rfl, hc⟩ := int_head hi
      exact ⟨c, _, rfl, .inr hc⟩
    · exact ⟨_, _, rfl, .inl rfl⟩

/-! ## Values -/

theorem jsonText_head {J : JsonFloats} {t : Json} {x : Str} (h : JsonText J t x) :
    ∃ c r, x = c :: r ∧ jsonSpace c = false ∧ c ≠ ']' ∧ c ≠ '}' ∧ c ≠ ',' := by
  have fin : ∀ (c : Char) (r : Str), (jsonSpace c = false ∧ c ≠ ']' ∧ c ≠ '}' ∧ c ≠ ',') →
      ∃ c' r', c :: r = c' :: r' ∧ jsonSpace c' = false ∧ c' ≠ ']' ∧ c' ≠ '}' ∧ c' ≠ ',' := fun c r h => ⟨c, r, rfl, h⟩
  match t, h with
  | .null, h => simp only [JsonText] at h; subst h; exact fin _ _ (by decide)
  | .leaf (.bool true), h => simp only [JsonText] at h; subst h; exact fin _ _ (by decide)
  | .leaf (.bool false), h => simp only [JsonText] at h; subst h; exact fin _ _ (by decide)
  | .leaf (.str s), h =>
    simp only [JsonText] at h
    obtain ⟨y, _, rfl⟩ := h
    exact fin _ _ (by decide)
  | .leaf (.num v), h =>
    simp only [JsonText] at h
    obtain ⟨c, r, rfl, hc⟩ := number_head h
    refine ⟨c, r, rfl, ?_⟩
    rcases hc with rfl | hc
    · decide
    · refine ⟨?_, ?_, ?_, ?_⟩
      · cases hs : jsonSpace c with
        | false => rfl
        | true => rcases jsonSpace_iff.1 hs with rfl | rfl | rfl | rfl <;> exact absurd hc (by decide)
      all_goals (rintro rfl; exact absurd hc (by decide))
  | .seq l, h =>
    simp only [JsonText] at h
    obtain ⟨y, _, rfl⟩ := h
    exact fin _ _ (by decide)
  | .map m, h =>
    simp only [JsonText] at h
    obtain ⟨y, _, rfl⟩ := h
    exact fin _ _ (by decide)

/-- What follows a value: the end, white space, or a character that separates or closes. -/
def Follows (r : Str) : Prop := ∀ c, r.head? = some c → jsonSpace c = true ∨ c = ',' ∨ c = ']' ∨ c = '}'

theorem Follows.stops {r : Str} (h : Follows r) : Stops r := by
  intro c hc
  rcases h c hc with hs | rfl | rfl | rfl
  · rcases jsonSpace_iff.1 hs with rfl | rfl | rfl | rfl <;> decide
  all_goals decide

theorem follows_nil : Follows [] := fun _ h => nomatch h

theorem follows_cons {c : Char} (h : c = ',' ∨ c = ']' ∨ c = '}') (r : Str) : Follows (c :: r) := by
  intro x hx
  cases hx
  exact .inr h

theorem follows_ws {w : Str} (hw : JsonWs w) {r : Str} (h : Follows r) : Follows (w ++ r) := by
  cases w with
  | nil => exact h
  | cons c w =>
    intro x hx
    cases hx
    exact .inl (jsonSpace_iff.2 (hw c (.head _)))

theorem skip_text {J : JsonFloats} {t : Json} {x : Str} (h : JsonText J t x) {w : Str} (hw : JsonWs w) (r : Str) :
    skipSpace (w ++ (x ++ r)) = x ++ r := by
  obtain ⟨c, y, rfl, hc, _⟩ := jsonText_head h
  rw [skipSpace_append hw, List.cons_append, skipSpace_cons hc]

theorem skip_char {c : Char} (hc : jsonSpace c = false) {w : Str} (hw : JsonWs w) (r : Str) :
    skipSpace (w ++ c :: r) = c :: r := by
  rw [skipSpace_append hw, skipSpace_cons hc]

theorem read_complete (J : JsonFloats) :
    (∀ t : Json, ∀ x n d w r, JsonText J t x → x.length ≤ n → nesting t < d → JsonWs w → Follows r →
      readValue J n d (w ++ (x ++ r)) = some (t, r)) ∧
    (∀ l : List Json, ∀ y n d r, JsonElems J l y → y.length < n → nestingSeq l < d →
      readElems J n d true (y ++ ']' :: r) = some (l, r) ∧
      (l ≠ [] → ∀ w, JsonWs w → readElems J n d false (w ++ ',' :: (y ++ ']' :: r)) = some (l, r))) ∧
    (∀ m : List (Str × Json), ∀ y n d r, JsonMembers J m y → y.length < n → nestingMap m < d →
      readEntries J n d true (y ++ '}' :: r) = some (m, r) ∧
      (m ≠ [] → ∀ w, JsonWs w → readEntries J n d false (w ++ ',' :: (y ++ '}' :: r)) = some (m, r))) := by
  apply Tree.induct
  · -- arrays
    intro l ih x n d w r h hn hd hw hr
    simp only [JsonText] at h
    obtain ⟨y, hy, rfl⟩ := h
    simp only [List.length_cons, List.length_append, List.length_nil] at hn
    obtain ⟨n, rfl⟩ : ∃ k, n = k + 1 := ⟨n - 1, by omega⟩
    simp only [nesting] at hd
    have := (ih y n (d - 1) r hy (by omega) (by omega)).1
    simp only [readValue, List.cons_append, skip_char (c := '[') (by decide) hw, List.append_assoc, List.nil_append]
    rw [if_neg (by decide), if_pos trivial, if_neg (by omega), this]
  · -- objects
    intro m ih x n d w r h hn hd hw hr
    simp only [JsonText] at h
    obtain ⟨y, hy, rfl⟩ := h
    simp only [List.length_cons, List.length_append, List.length_nil] at hn
    obtain ⟨n, rfl⟩ : ∃ k, n = k + 1 := ⟨n - 1, by omega⟩
    simp only [nesting] at hd
    have := (ih y n (d - 1) r hy (by omega) (by omega)).1
    simp only [readValue, List.cons_append, skip_char (c := '{') (by decide) hw, List.append_assoc, List.nil_append]
    rw [if_neg (by decide), if_neg (by decide), if_pos trivial, if_neg (by omega), this]
  · -- null
    intro x n d w r h hn hd hw hr
    simp only [JsonText] at h
    subst h
    obtain ⟨n, rfl⟩ : ∃ k, n = k + 1 := ⟨n - 1, by simp at hn; omega⟩
    simp only [readValue, List.cons_append, skip_char (c := 'n') (by decide) hw]
    rfl
  · -- scalars
    intro a x n d w r h hn hd hw hr
    have hpos : 0 < x.length := by
      obtain ⟨c, y, rfl, _⟩ := jsonText_head h
      simp
    obtain ⟨n, rfl⟩ : ∃ k, n = k + 1 := ⟨n - 1, by omega⟩
    match a, h with
    | .bool true, h =>
      simp only [JsonText] at h
      subst h
      simp only [readValue, List.cons_append, skip_char (c := 't') (by decide) hw]
      rfl
    | .bool false, h =>
      simp only [JsonText] at h
      subst h
      simp only [readValue, List.cons_append, skip_char (c := 'f') (by decide) hw]
      rfl
    | .str s, h =>
      simp only [JsonText] at h
      obtain ⟨x', e, h2⟩ := jsonString_read h r
      rw [e]
      simp only [readValue, skip_char (c := '"') (by decide) hw, if_true, h2]
    | .num v, h =>
      have h' := h
      simp only [JsonText] at h
      simp only [readValue, skip_text h' hw]
      have hc := readNumber_complete h hr.stops
      obtain ⟨c, y, rfl, hc'⟩ := number_head h
      have hne : c ≠ '"' ∧ c ≠ '[' ∧ c ≠ '{' ∧ c ≠ 'n' ∧ c ≠ 't' ∧ c ≠ 'f' := by
        rcases hc' with rfl | hc'
        · decide
        · refine ⟨?_, ?_, ?_, ?_, ?_, ?_⟩ <;> (rintro rfl; exact absurd hc' (by decide))
      simp only [List.cons_append] at hc ⊢
      rw [if_neg hne.1, if_neg hne.2.1, if_neg hne.2.2.1, if_neg hne.2.2.2.1, if_neg hne.2.2.2.2.1, if_neg hne.2.2.2.2.2, hc]
  · -- no elements
    intro y n d r h hn hd
    refine ⟨?_, fun h => absurd rfl h⟩
    simp only [JsonElems] at h
    obtain ⟨n, rfl⟩ : ∃ k, n = k + 1 := ⟨n - 1, by omega⟩
    simp only [readElems, skip_char (c := ']') (by decide) h, if_true]
  · -- elements
    intro t l h1 h2 y n d r h hn hd
    simp only [JsonElems] at h
    obtain ⟨w, x, w', z, hw, hx, hw', hz, hyz⟩ := h
    simp only [nestingSeq] at hd
    obtain ⟨n, rfl⟩ : ∃ k, n = k + 1 := ⟨n - 1, by omega⟩
    obtain ⟨c, x', hcx, hc, hb, _, _⟩ := jsonText_head hx
    have hpos : 0 < x.length := by rw [hcx]; simp
    -- the value and what follows it
    have key : ∀ v : Str, JsonWs v → ∃ s', y ++ ']' :: r = w ++ (x ++ s') ∧ readValue J n d (v ++ (x ++ s')) = some (t, s') ∧
        readElems J n d false s' = some (l, r) := by
      intro v hv
      rcases hyz with ⟨rfl, rfl, rfl⟩ | ⟨hl, rfl⟩
      · refine ⟨w' ++ ']' :: r, by simp, h1 x n d v _ hx (by simp only [List.length_append] at hn; omega) (by omega) hv
          (follows_ws hw' (follows_cons (by simp) r)), ?_⟩
        obtain ⟨k, rfl⟩ : ∃ k, n = k + 1 := ⟨n - 1, by simp only [List.length_append] at hn; omega⟩
        simp only [readElems, skip_char (c := ']') (by decide) hw', if_true]
      · simp only [List.length_append, List.length_cons, List.length_nil] at hn
        exact ⟨w' ++ ',' :: (z ++ ']' :: r), by simp, h1 x n d v _ hx (by omega) (by omega) hv
          (follows_ws hw' (follows_cons (by simp) _)), (h2 z n d r hz (by omega) (by omega)).2 hl w' hw'⟩
    refine ⟨?_, fun _ v hv => ?_⟩
    · obtain ⟨s', e, hrv, hre⟩ := key [] jsonWs_nil
      rw [e]
      simp only [readElems, skip_text hx hw]
      rw [hcx] at hrv ⊢
      simp only [List.cons_append, List.nil_append] at hrv ⊢
      rw [if_neg hb]
      simp only [if_true, hrv, hre]
    · obtain ⟨s', e, hrv, hre⟩ := key w hw
      rw [e]
      simp only [readElems, skip_char (c := ',') (by decide) hv]
      rw [if_neg (by decide)]
      simp only [Bool.false_eq_true, if_false, if_true, hrv, hre]
  · -- no members
    intro y n d r h hn hd
    refine ⟨?_, fun h => absurd rfl h⟩
    simp only [JsonMembers] at h
    obtain ⟨n, rfl⟩ : ∃ k, n = k + 1 := ⟨n - 1, by omega⟩
    simp only [readEntries, skip_char (c := '}') (by decide) h, if_true]
  · -- members
    intro k t l h1 h2 y n d r h hn hd
    simp only [JsonMembers] at h
    obtain ⟨w, q, w1, w2, x, w', z, hw, hq, hw1, hw2, hx, hw', hz, hyz⟩ := h
    simp only [nestingMap] at hd
    obtain ⟨n, rfl⟩ : ∃ k, n = k + 1 := ⟨n - 1, by omega⟩
    have hpos : 0 < x.length := by
      obtain ⟨c, x', rfl, _⟩ := jsonText_head hx
      simp
    have key : ∃ s', y ++ '}' :: r = w ++ (q ++ (w1 ++ ':' :: (w2 ++ (x ++ s')))) ∧ readValue J n d (w2 ++ (x ++ s')) = some (t, s') ∧
        readEntries J n d false s' = some (l, r) := by
      rcases hyz with ⟨rfl, rfl, rfl⟩ | ⟨hl, rfl⟩
      · simp only [List.length_append, List.length_cons, List.length_nil] at hn
        refine ⟨w' ++ '}' :: r, by simp, h1 x n d w2 _ hx (by omega) (by omega) hw2
          (follows_ws hw' (follows_cons (by simp) r)), ?_⟩
        obtain ⟨k, rfl⟩ : ∃ k, n = k + 1 := ⟨n - 1, by omega⟩
        simp only [readEntries, skip_char (c := '}') (by decide) hw', if_true]
      · simp only [List.length_append, List.length_cons, List.length_nil] at hn
        exact ⟨w' ++ ',' :: (z ++ '}' :: r), by simp, h1 x n d w2 _ hx (by omega) (by omega) hw2
          (follows_ws hw' (follows_cons (by simp) _)), (h2 z n d r hz (by omega) (by omega)).2 hl w' hw'⟩
    obtain ⟨s', e, hrv, hre⟩ := key
    rw [e]
    obtain ⟨q', eq, hq'⟩ := jsonString_read hq (w1 ++ ':' :: (w2 ++ (x ++ s')))
    rw [eq]
    refine ⟨?_, fun _ v hv => ?_⟩
    · simp only [readEntries, skip_char (c := '"') (by decide) hw]
      rw [if_neg (by decide)]
      simp only [if_true, hq', skip_char (c := ':') (by decide) hw1, hrv, hre]
    · simp only [readEntries, skip_char (c := ',') (by decide) hv]
      rw [if_neg (by decide)]
      simp only [Bool.false_eq_true, if_false, if_true, skip_char (c := '"') (by decide) hw, hq',
        skip_char (c := ':') (by decide) hw1, hrv, hre]

theorem read_sound (J : JsonFloats) : ∀ n : Nat,
    (∀ d s t r, readValue J n d s = some (t, r) → nesting t ≤ d - 1 ∧ ∃ w x, JsonWs w ∧ JsonText J t x ∧ s = w ++ (x ++ r)) ∧
    (∀ d s l r first, readElems J n d first s = some (l, r) → nestingSeq l ≤ d - 1 ∧
      ((first = true ∧ ∃ y, JsonElems J l y ∧ s = y ++ ']' :: r) ∨
       (first = false ∧ l = [] ∧ ∃ w, JsonWs w ∧ s = w ++ ']' :: r) ∨
       (first = false ∧ l ≠ [] ∧ ∃ w y, JsonWs w ∧ JsonElems J l y ∧ s = w ++ ',' :: (y ++ ']' :: r)))) ∧
    (∀ d s m r first, readEntries J n d first s = some (m, r) → nestingMap m ≤ d - 1 ∧
      ((first = true ∧ ∃ y, JsonMembers J m y ∧ s = y ++ '}' :: r) ∨
       (first = false ∧ m = [] ∧ ∃ w, JsonWs w ∧ s = w ++ '}' :: r) ∨
       (first = false ∧ m ≠ [] ∧ ∃ w y, JsonWs w ∧ JsonMembers J m y ∧ s = w ++ ',' :: (y ++ '}' :: r)))) := by
  intro n
  induction n with
  | zero =>
    refine ⟨fun _ _ _ _ h => ?_, fun _ _ _ _ _ h => ?_, fun _ _ _ _ _ h => ?_⟩
    · simp only [readValue] at h; cases h
    · simp only [readElems] at h; cases h
    · simp only [readEntries] at h; cases h
  | succ n ih =>
    obtain ⟨ihV, ihS, ihM⟩ := ih
    refine ⟨fun d s t r h => ?_, fun d s l r first h => ?_, fun d s m r first h => ?_⟩
    · -- values
      obtain ⟨w, hw, hs⟩ := skipSpace_spec s
      simp only [readValue] at h
      split at h
      · cases h
      · rename_i c y hy
        rw [hy] at hs
        have fin : ∀ x, JsonText J t x → c :: y = x ++ r → ∃ w x, JsonWs w ∧ JsonText J t x ∧ s = w ++ (x ++ r) :=
          fun x hx e => ⟨w, x, hw, hx, by rw [← e]; exact hs⟩
        split at h
        · rename_i hc
          subst hc
          split at h
          · rename_i s' r' hr
            cases h
            obtain ⟨z, hz, rfl⟩ := readChars_sound _ (Nat.le_refl _) hr
            refine ⟨Nat.zero_le _, fin ('"' :: (z ++ ['"'])) ?_ (by simp)⟩
            simp only [JsonText]
            exact ⟨z, hz, rfl⟩
          · cases h
        · split at h
          · rename_i hc
            subst hc
            split at h
            · cases h
            · rename_i hd
              split at h
              · rename_i l r' hr
                cases h
                obtain ⟨hn, hl⟩ := ihS _ _ _ _ _ hr
                rcases hl with ⟨_, z, hz, rfl⟩ | ⟨hf, _⟩ | ⟨hf, _⟩
                · refine ⟨by simp only [nesting]; omega, fin ('[' :: (z ++ [']'])) ?_ (by simp)⟩
                  simp only [JsonText]
                  exact ⟨z, hz, rfl⟩
                · cases hf
                · cases hf
              · cases h
          · split at h
            · rename_i hc
              subst hc
              split at h
              · cases h
              · rename_i hd
                split at h
                · rename_i l r' hr
                  cases h
                  obtain ⟨hn, hl⟩ := ihM _ _ _ _ _ hr
                  rcases hl with ⟨_, z, hz, rfl⟩ | ⟨hf, _⟩ | ⟨hf, _⟩
                  · refine ⟨by simp only [nesting]; omega, fin ('{' :: (z ++ ['}'])) ?_ (by simp)⟩
                    simp only [JsonText]
                    exact ⟨z, hz, rfl⟩
                  · cases hf
                  · cases hf
                · cases h
            · split at h
              · rename_i hc
                subst hc
                split at h
                · rename_i r' hr
                  cases h
                  rw [stripPrefix_eq_some] at hr
                  subst hr
                  exact ⟨Nat.zero_le _, fin c!"null" (by simp only [JsonText]) rfl⟩
                · cases h
              · split at h
                · rename_i hc
                  subst hc
                  split at h
                  · rename_i r' hr
                    cases h
                    rw [stripPrefix_eq_some] at hr
                    subst hr
                    exact ⟨Nat.zero_le _, fin c!"true" (by simp only [JsonText]) rfl⟩
                  · cases h
                · split at h
                  · rename_i hc
                    subst hc
                    split at h
                    · rename_i r' hr
                      cases h
                      rw [stripPrefix_eq_some] at hr
                      subst hr
                      exact ⟨Nat.zero_le _, fin c!"false" (by simp only [JsonText]) rfl⟩
                    · cases h
                  · split at h
                    · rename_i v r' hr
                      cases h
                      obtain ⟨x, hx, e⟩ := readNumber_sound hr
                      exact ⟨Nat.zero_le _, fin x (by simp only [JsonText]; exact hx) e⟩
                    · cases h
    · -- elements
      obtain ⟨w, hw, hs⟩ := skipSpace_spec s
      simp only [readElems] at h
      split at h
      · cases h
      · rename_i c y hy
        rw [hy] at hs
        split at h
        · rename_i hc
          subst hc
          cases h
          refine ⟨Nat.zero_le _, ?_⟩
          cases first with
          | true => exact .inl ⟨rfl, w, by simp only [JsonElems]; exact hw, hs⟩
          | false => exact .inr (.inl ⟨rfl, rfl, w, hw, hs⟩)
        · rename_i hc
          split at h
          · cases h
          · rename_i s' hs'
            split at h
            · cases h
            · rename_i t r1 hv
              split at h
              · cases h
              · rename_i l' r2 hl
                cases h
                obtain ⟨n1, v, x, hvw, hx, rfl⟩ := ihV _ _ _ _ hv
                obtain ⟨n2, hl'⟩ := ihS _ _ _ _ _ hl
                refine ⟨by simp only [nestingSeq]; omega, ?_⟩
                -- the rest of the elements
                have elems : ∀ a, JsonWs a → ∃ z, JsonElems J (t :: l') z ∧ a ++ (x ++ r1) = z ++ ']' :: r := by
                  intro a ha
                  rcases hl' with ⟨hf, _⟩ | ⟨_, rfl, w', hw', rfl⟩ | ⟨_, hne, w', z, hw', hz, rfl⟩
                  · cases hf
                  · refine ⟨a ++ x ++ w', ?_, by simp⟩
                    simp only [JsonElems]
                    exact ⟨a, x, w', [], ha, hx, hw', jsonWs_nil, .inl ⟨trivial, rfl, rfl⟩⟩
                  · refine ⟨a ++ x ++ w' ++ [','] ++ z, ?_, by simp⟩
                    simp only [JsonElems]
                    exact ⟨a, x, w', z, ha, hx, hw', hz, .inr ⟨hne, rfl⟩⟩
                cases first with
                | true =>
                  simp only [if_true, Option.some.injEq] at hs'
                  obtain ⟨z, hz, e⟩ := elems (w ++ v) (jsonWs_append hw hvw)
                  exact .inl ⟨rfl, z, hz, by rw [hs, hs', ← e]; simp⟩
                | false =>
                  simp only [Bool.false_eq_true, if_false] at hs'
                  split at hs'
                  · rename_i hcc
                    subst hcc
                    simp only [Option.some.injEq] at hs'
                    subst hs'
                    obtain ⟨z, hz, e⟩ := elems v hvw
                    exact .inr (.inr ⟨rfl, (fun h => nomatch h), w, z, hw, hz, by rw [hs, e]⟩)
                  · cases hs'
    · -- members
      obtain ⟨w, hw, hs⟩ := skipSpace_spec s
      simp only [readEntries] at h
      split at h
      · cases h
      · rename_i c y hy
        rw [hy] at hs
        split at h
        · rename_i hc
          subst hc
          cases h
          refine ⟨Nat.zero_le _, ?_⟩
          cases first with
          | true => exact .inl ⟨rfl, w, by simp only [JsonMembers]; exact hw, hs⟩
          | false => exact .inr (.inl ⟨rfl, rfl, w, hw, hs⟩)
        · rename_i hc
          split at h
          · rename_i s' hs'
            split at h
            · cases h
            · rename_i k r0 hk
              obtain ⟨q, hq, rfl⟩ := readChars_sound _ (Nat.le_refl _) hk
              obtain ⟨w1, hw1, hr0⟩ := skipSpace_spec r0
              split at h
              · rename_i r0' hcolon
                rw [hcolon] at hr0
                split at h
                · cases h
                · rename_i t r1 hv
                  split at h
                  · cases h
                  · rename_i l' r2 hl
                    cases h
                    obtain ⟨n1, w2, x, hw2, hx, rfl⟩ := ihV _ _ _ _ hv
                    obtain ⟨n2, hl'⟩ := ihM _ _ _ _ _ hl
                    refine ⟨by simp only [nestingMap]; omega, ?_⟩
                    subst hr0
                    have elems : ∀ a, JsonWs a → ∃ z, JsonMembers J ((k, t) :: l') z ∧
                        a ++ ('"' :: (q ++ '"' :: (w1 ++ ':' :: (w2 ++ (x ++ r1))))) = z ++ '}' :: r := by
                      intro a ha
                      rcases hl' with ⟨hf, _⟩ | ⟨_, rfl, w', hw', rfl⟩ | ⟨_, hne, w', z, hw', hz, rfl⟩
                      · cases hf
                      · refine ⟨a ++ ('"' :: (q ++ ['"'])) ++ w1 ++ [':'] ++ w2 ++ x ++ w', ?_, by simp⟩
                        simp only [JsonMembers]
                        exact ⟨a, _, w1, w2, x, w', [], ha, ⟨q, hq, rfl⟩, hw1, hw2, hx, hw', jsonWs_nil, .inl ⟨trivial, rfl, rfl⟩⟩
                      · refine ⟨a ++ ('"' :: (q ++ ['"'])) ++ w1 ++ [':'] ++ w2 ++ x ++ w' ++ [','] ++ z, ?_, by simp⟩
                        simp only [JsonMembers]
                        exact ⟨a, _, w1, w2, x, w', z, ha, ⟨q, hq, rfl⟩, hw1, hw2, hx, hw', hz, .inr ⟨hne, rfl⟩⟩
                    cases first with
                    | true =>
                      simp only [if_true, Option.some.injEq] at hs'
                      obtain ⟨z, hz, e⟩ := elems w hw
                      exact .inl ⟨rfl, z, hz, by rw [hs, hs', ← e]⟩
                    | false =>
                      simp only [Bool.false_eq_true, if_false] at hs'
                      split at hs'
                      · rename_i hcc
                        subst hcc
                        simp only [Option.some.injEq] at hs'
                        obtain ⟨a, ha, hya⟩ := skipSpace_spec y
                        rw [hs'] at hya
                        obtain ⟨z, hz, e⟩ := elems a ha
                        exact .inr (.inr ⟨rfl, (fun h => nomatch h), w, z, hw, hz, by rw [hs, hya, e]⟩)
                      · cases hs'
              · cases h
          · cases h

/-! ## Writing -/

theorem jsonEscape_char (c : Char) : JsonChar c (jsonEscape c) := by
  have e : Char.ofNat c.toNat = c := Char.ofNat_toNat c
  have letter : ∀ (l : Char) (n : Nat), (l, n) ∈ escapeLetters → c.toNat = n → JsonChar c ['\\', l] := by
    intro l n h hc
    have := JsonChar.letter h
    rwa [← hc, e] at this
  unfold jsonEscape
  split
  · rename_i h; subst h; exact letter '"' 34 (by decide) (by decide)
  split
  · rename_i h; subst h; exact letter '\\' 92 (by decide) (by decide)
  split
  · rename_i h; exact letter 'b' 8 (by decide) h
  split
  · rename_i h; exact letter 't' 9 (by decide) h
  split
  · rename_i h; exact letter 'n' 10 (by decide) h
  split
  · rename_i h; exact letter 'f' 12 (by decide) h
  split
  · rename_i h; exact letter 'r' 13 (by decide) h
  split
  · rename_i h
    have hx : ∀ n, n < 16 → HexDigit (jsonHex n) n := by
      intro n hn
      unfold HexDigit jsonHex
      by_cases h10 : n < 10
      · rw [if_pos h10]; exact .inl ⟨h10, rfl⟩
      · rw [if_neg h10]; exact .inr ⟨by omega, hn, .inr rfl⟩
    have := JsonChar.unicode (h := ['0', '0', jsonHex (c.toNat / 16), jsonHex (c.toNat % 16)]) (v := c.toNat)
      ⟨'0', '0', _, _, 0, 0, c.toNat / 16, c.toNat % 16, rfl, .inl ⟨by omega, by decide⟩, .inl ⟨by omega, by decide⟩,
        hx _ (by omega), hx _ (by omega), by omega⟩ (.inl (by omega))
    rwa [e] at this
  · exact .plain (by omega) (by assumption) (by assumption)

theorem jsonQuote_string (s : Str) : JsonString s (jsonQuote s) := by
  refine ⟨s.flatMap jsonEscape, ?_, rfl⟩
  induction s with
  | nil => exact .nil
  | cons c r ih => exact .cons (jsonEscape_char c) ih

theorem toDigits_int (n : Nat) : JsonInt (Nat.toDigits 10 n) n := by
  have h : Decimal (Nat.toDigits 10 n) n := Props.decimal_iff.2 (parseNat_toDigits n)
  refine ⟨h, ?_⟩
  induction n using Nat.strongRecOn with
  | ind n ih =>
    by_cases hn : n < 10
    · have : ∀ n, n < 10 → (Nat.toDigits 10 n = ['0'] ∨ (Nat.toDigits 10 n).head? ≠ some '0') := by decide
      exact this n hn
    · right
      rw [Nat.toDigits_of_base_le (by omega) (by omega)]
      have h1 := ih (n / 10) (by omega) (Props.decimal_iff.2 (parseNat_toDigits _))
      obtain ⟨c, r, hc, _⟩ := int_head (ds := Nat.toDigits 10 (n / 10)) (n := n / 10) ⟨Props.decimal_iff.2 (parseNat_toDigits _), h1⟩
      have hv := decimal_value (Props.decimal_iff.2 (parseNat_toDigits (n / 10)))
      rcases h1 with h1 | h1
      · rw [h1] at hv
        have : Nat.ofDigitChars 10 ['0'] 0 = 0 := by decide
        omega
      · rw [hc] at h1 ⊢
        simpa using h1

theorem number_text {J : JsonFloats} {v : Number} (h : ScalarKept J (.num v)) : JsonNumber J v (v.jsonText J) := by
  cases v with
  | posInt u => exact .nat (toDigits_int _) rfl
  | negInt i =>
    have h : i.toInt < 0 := h
    show JsonNumber J (.negInt i) (showInt i)
    unfold showInt
    simp only [if_pos h]
    exact .negative (toDigits_int _) (by omega) (by omega)
  | float s => exact h

theorem scalar_text {J : JsonFloats} {a : JsonScalar} (h : ScalarKept J a) : JsonText J (.leaf a) (a.text J) := by
  match a, h with
  | .bool true, _ => simp only [JsonText, JsonScalar.text]
  | .bool false, _ => simp only [JsonText, JsonScalar.text]
  | .str s, _ => simp only [JsonText]; exact jsonQuote_string s
  | .num v, h => simp only [JsonText]; exact number_text h

theorem jsonLine_ws (n : Nat) : JsonWs (jsonLine n) := by
  intro c hc
  rcases List.mem_cons.1 hc with rfl | hc
  · exact .inr (.inr (.inl rfl))
  · exact .inl (List.eq_of_mem_replicate hc)

theorem prettySeq_false (J : JsonFloats) (n : Nat) {l : List Json} (h : l ≠ []) :
    Json.prettySeq J n false l = ',' :: Json.prettySeq J n true l := by
  cases l with
  | nil => exact absurd rfl h
  | cons t r => simp [Json.prettySeq]

theorem prettyMap_false (J : JsonFloats) (n : Nat) {l : List (Str × Json)} (h : l ≠ []) :
    Json.prettyMap J n false l = ',' :: Json.prettyMap J n true l := by
  cases l with
  | nil => exact absurd rfl h
  | cons t r => simp [Json.prettyMap]

/-- What the writer gives is a text of the value. -/
theorem pretty_text (J : JsonFloats) :
    (∀ t : Json, ∀ p n, (∀ pv ∈ leavesAt p t, ScalarKept J pv.2) → JsonText J t (Json.pretty J n t)) ∧
    (∀ l : List Json, ∀ p n w, (∀ pv ∈ leavesSeq p l, ScalarKept J pv.2) → JsonWs w → l ≠ [] →
      JsonElems J l (Json.prettySeq J n true l ++ w)) ∧
    (∀ m : List (Str × Json), ∀ p n w, (∀ pv ∈ leavesMap p m, ScalarKept J pv.2) → JsonWs w → m ≠ [] →
      JsonMembers J m (Json.prettyMap J n true m ++ w)) := by
  apply Tree.induct
  · intro l ih p n h
    simp only [leavesAt] at h
    simp only [JsonText, Json.pretty]
    cases l with
    | nil => exact ⟨[], by simp only [JsonElems]; exact jsonWs_nil, by simp [Json.prettySeq]⟩
    | cons t r => exact ⟨_, ih p (n + 1) (jsonLine n) h (jsonLine_ws n) (by simp), by simp⟩
  · intro m ih p n h
    simp only [leavesAt] at h
    simp only [JsonText, Json.pretty]
    cases m with
    | nil => exact ⟨[], by simp only [JsonMembers]; exact jsonWs_nil, by simp [Json.prettyMap]⟩
    | cons t r => exact ⟨_, ih p (n + 1) (jsonLine n) h (jsonLine_ws n) (by simp), by simp⟩
  · intro p n h
    simp only [JsonText, Json.pretty]
  · intro a p n h
    simp only [leavesAt] at h
    simp only [Json.pretty]
    exact scalar_text (h _ (.head _))
  · intro p n w h hw hne
    exact absurd rfl hne
  · intro t r h1 h2 p n w h hw _
    simp only [leavesSeq] at h
    have a := h1 p n fun pv hp => h pv (List.mem_append_left _ hp)
    have b := fun pv hp => h pv (List.mem_append_right _ hp)
    simp only [JsonElems]
    by_cases hr : r = []
    · subst hr
      exact ⟨jsonLine n, _, w, [], jsonLine_ws n, a, hw, by simp only [JsonElems]; exact jsonWs_nil,
        .inl ⟨rfl, rfl, by simp [Json.prettySeq]⟩⟩
    · exact ⟨jsonLine n, _, [], _, jsonLine_ws n, a, jsonWs_nil, h2 p n w b hw hr,
        .inr ⟨hr, by simp [Json.prettySeq, prettySeq_false J n hr]⟩⟩
  · intro p n w h hw hne
    exact absurd rfl hne
  · intro k t r h1 h2 p n w h hw _
    simp only [leavesMap] at h
    have a := h1 (p ++ [k]) n fun pv hp => h pv (List.mem_append_left _ hp)
    have b := fun pv hp => h pv (List.mem_append_right _ hp)
    simp only [JsonMembers]
    have hsp : JsonWs [' '] := by
      intro c hc
      simp only [List.mem_cons, List.not_mem_nil, or_false] at hc
      exact .inl hc
    by_cases hr : r = []
    · subst hr
      exact ⟨jsonLine n, _, [], [' '], _, w, [], jsonLine_ws n, jsonQuote_string k, jsonWs_nil, hsp, a, hw,
        by simp only [JsonMembers]; exact jsonWs_nil, .inl ⟨rfl, rfl, by simp [Json.prettyMap]⟩⟩
    · exact ⟨jsonLine n, _, [], [' '], _, [], _, jsonLine_ws n, jsonQuote_string k, jsonWs_nil, hsp, a, jsonWs_nil,
        h2 p n w b hw hr, .inr ⟨hr, by simp [Json.prettyMap, prettyMap_false J n hr]⟩⟩

/-! ## Repeated keys -/

theorem settle_distinct :
    (∀ t : Json, DistinctKeys t → t.settle = t) ∧
    (∀ l : List Json, DistinctKeysSeq l → Json.settleSeq l = l) ∧
    (∀ m : List (Str × Json), ∀ acc, DistinctKeysMap m → ((acc ++ m).map Prod.fst).Nodup → Json.settleMap acc m = acc ++ m) := by
  apply Tree.induct
  · intro l ih h
    simp only [DistinctKeys] at h
    simp only [Json.settle, ih h]
  · intro m ih h
    simp only [DistinctKeys] at h
    simp only [Json.settle, ih [] h.2 (by simpa using h.1), List.nil_append]
  · intro _; rfl
  · intro a _; rfl
  · intro _; rfl
  · intro t r h1 h2 h
    simp only [DistinctKeysSeq] at h
    simp only [Json.settleSeq, h1 h.1, h2 h.2]
  · intro acc _ _
    simp only [Json.settleMap, List.append_nil]
  · intro k t r h1 h2 acc h hn
    simp only [DistinctKeysMap] at h
    have hk : k ∉ acc.map Prod.fst := by
      rw [List.map_append, List.nodup_append] at hn
      intro hk
      exact hn.2.2 k hk k (by simp) rfl
    simp only [Json.settleMap, h1 h.1, IndexMap.insert_of_not_mem hk]
    rw [h2 _ h.2 (by simpa using hn)]
    simp

theorem settleTop_kept {m : List (Str × Json)} : ∀ acc : List (Str × Json),
    ((((acc ++ m).map Prod.fst).filter (· ≠ sopsKey)).Nodup) → (∀ e ∈ m, e.1 ≠ sopsKey → DistinctKeys e.2) →
    Json.settleTop acc m = acc ++ m := by
  induction m with
  | nil => intro acc _ _; simp only [Json.settleTop, List.append_nil]
  | cons e r ih =>
    obtain ⟨k, t⟩ := e
    intro acc hn hi
    simp only [Json.settleTop]
    split
    · rw [ih (acc ++ [(k, t)]) (by simpa using hn) (fun e he => hi e (.tail _ he))]
      simp
    · rename_i hk
      have hk' : k ∉ acc.map Prod.fst := by
        intro hm
        rw [List.map_append, List.filter_append, List.nodup_append] at hn
        exact hn.2.2 k (List.mem_filter.2 ⟨hm, by simpa using hk⟩) k (by simp [hk]) rfl
      rw [settle_distinct.1 t (hi (k, t) (.head _) hk), IndexMap.insert_of_not_mem hk',
        ih (acc ++ [(k, t)]) (by simpa using hn) (fun e he => hi e (.tail _ he))]
      simp

theorem IndexMap.mem_of_insert {β : Type} {m : List (Str × β)} {k : Str} {v : β} {e : Str × β}
    (h : e ∈ IndexMap.insert m k v) : e ∈ m ∨ e = (k, v) := by
  induction m with
  | nil => exact .inr (by simpa [IndexMap.insert] using h)
  | cons a r ih =>
    obtain ⟨k', v'⟩ := a
    simp only [IndexMap.insert] at h
    split at h
    · rcases List.mem_cons.1 h with h | h
      · exact .inr h
      · exact .inl (.tail _ h)
    · rcases List.mem_cons.1 h with h | h
      · subst h; exact .inl (.head _)
      · exact (ih h).imp (.tail _) id

theorem mem_leavesMap {α : Type} {p : List Str} {m : RMap α} {pv : List Str × α} :
    pv ∈ leavesMap p m ↔ ∃ e ∈ m, pv ∈ leavesAt (p ++ [e.1]) e.2 := by
  induction m with
  | nil => simp [leavesMap]
  | cons e r ih =>
    obtain ⟨k, t⟩ := e
    simp only [leavesMap, List.mem_append, ih, List.mem_cons, exists_eq_or_imp]

theorem nestingMap_le {α : Type} {m : RMap α} {n : Nat} : nestingMap m ≤ n ↔ ∀ e ∈ m, nesting e.2 ≤ n := by
  induction m with
  | nil => simp [nestingMap]
  | cons e r ih =>
    obtain ⟨k, t⟩ := e
    simp only [nestingMap, Nat.max_le, ih, List.forall_mem_cons]

theorem distinctKeysMap_iff {α : Type} {m : RMap α} : DistinctKeysMap m ↔ ∀ e ∈ m, DistinctKeys e.2 := by
  induction m with
  | nil => simp [DistinctKeysMap]
  | cons e r ih =>
    obtain ⟨k, t⟩ := e
    simp only [DistinctKeysMap, ih, List.forall_mem_cons]

theorem leavesAt_snd {α : Type} :
    (∀ t : Tree α, ∀ q r, (leavesAt q t).map Prod.snd = (leavesAt r t).map Prod.snd) ∧
    (∀ l : List (Tree α), ∀ q r, (leavesSeq q l).map Prod.snd = (leavesSeq r l).map Prod.snd) ∧
    (∀ m : RMap α, ∀ q r, (leavesMap q m).map Prod.snd = (leavesMap r m).map Prod.snd) := by
  apply Tree.induct
  · intro l ih q r; simp only [leavesAt]; exact ih q r
  · intro m ih q r; simp only [leavesAt]; exact ih q r
  · intro q r; simp only [leavesAt]
  · intro a q r; simp only [leavesAt, List.map_cons, List.map_nil]
  · intro q r; simp only [leavesSeq]
  · intro t l h1 h2 q r; simp only [leavesSeq, List.map_append, h1 q r, h2 q r]
  · intro q r; simp only [leavesMap]
  · intro k t m h1 h2 q r; simp only [leavesMap, List.map_append, h1 (q ++ [k]) (r ++ [k]), h2 q r]

/-- All scalars of a tree. -/
def AllScalars (P : JsonScalar → Prop) (t : Json) : Prop := ∀ p, ∀ pv ∈ leavesAt p t, P pv.2

theorem settle_spec (P : JsonScalar → Prop) :
    (∀ t : Json, nesting t.settle ≤ nesting t ∧ DistinctKeys t.settle ∧ (AllScalars P t → AllScalars P t.settle)) ∧
    (∀ l : List Json, nestingSeq (Json.settleSeq l) ≤ nestingSeq l ∧ DistinctKeysSeq (Json.settleSeq l) ∧
      ((∀ p, ∀ pv ∈ leavesSeq p l, P pv.2) → ∀ p, ∀ pv ∈ leavesSeq p (Json.settleSeq l), P pv.2)) ∧
    (∀ m : List (Str × Json), ∀ acc : List (Str × Json),
      (∀ n, (∀ e ∈ acc, nesting e.2 ≤ n) → nestingMap m ≤ n → nestingMap (Json.settleMap acc m) ≤ n) ∧
      ((acc.map Prod.fst).Nodup → ((Json.settleMap acc m).map Prod.fst).Nodup) ∧
      ((∀ e ∈ acc, DistinctKeys e.2) → DistinctKeysMap (Json.settleMap acc m)) ∧
      ((∀ e ∈ acc, AllScalars P e.2) → (∀ e ∈ m, AllScalars P e.2) → ∀ e ∈ Json.settleMap acc m, AllScalars P e.2)) := by
  apply Tree.induct
  · intro l ih
    simp only [Json.settle, nesting, DistinctKeys]
    refine ⟨by omega, ih.2.1, fun h p pv hp => ?_⟩
    simp only [leavesAt] at hp
    exact ih.2.2 (fun p pv hp => h p pv (by simpa only [leavesAt] using hp)) p pv hp
  · intro m ih
    simp only [Json.settle, nesting, DistinctKeys]
    obtain ⟨h1, h2, h3, h4⟩ := ih []
    refine ⟨Nat.add_le_add_right (h1 _ (fun _ h => nomatch h) (Nat.le_refl _)) 1,
      ⟨h2 List.nodup_nil, h3 (fun _ h => nomatch h)⟩, fun h p pv hp => ?_⟩
    simp only [leavesAt] at hp
    obtain ⟨e, he, hpe⟩ := mem_leavesMap.1 hp
    refine h4 (fun _ h => nomatch h) (fun e' he' q qv hq => ?_) e he _ pv hpe
    -- paths are irrelevant to the scalars
    have : ∀ (t : Json), (∀ q r, (leavesAt q t).map Prod.snd = (leavesAt r t).map Prod.snd) := leavesAt_snd.1
    obtain ⟨x, hx, hxe⟩ := List.mem_map.1 (this e'.2 q ([] ++ [e'.1]) ▸ List.mem_map_of_mem (f := Prod.snd) hq)
    rw [← hxe]
    exact h [] x (by simp only [leavesAt]; exact mem_leavesMap.2 ⟨e', he', hx⟩)
  · simp only [Json.settle, nesting, DistinctKeys]; exact ⟨Nat.le_refl _, trivial, id⟩
  · intro a; simp only [Json.settle, nesting, DistinctKeys]; exact ⟨Nat.le_refl _, trivial, id⟩
  · simp only [Json.settleSeq, DistinctKeysSeq]; exact ⟨Nat.le_refl _, trivial, id⟩
  · intro t r h1 h2
    simp only [Json.settleSeq, nestingSeq, DistinctKeysSeq, leavesSeq]
    refine ⟨by omega, ⟨h1.2.1, h2.2.1⟩, fun h p pv hp => ?_⟩
    rcases List.mem_append.1 hp with hp | hp
    · exact h1.2.2 (fun p pv hp => h p pv (List.mem_append_left _ hp)) p pv hp
    · exact h2.2.2 (fun p pv hp => h p pv (List.mem_append_right _ hp)) p pv hp
  · intro acc
    simp only [Json.settleMap]
    exact ⟨fun n h _ => nestingMap_le.2 h, id, fun h => distinctKeysMap_iff.2 h, fun h _ => h⟩
  · intro k t r h1 h2 acc
    simp only [Json.settleMap]
    obtain ⟨a, b, c, d⟩ := h2 (IndexMap.insert acc k (Json.settle t))
    refine ⟨fun n ha hm => ?_, fun hn => b (IndexMap.insert_nodup k _ hn), fun ha => c ?_, fun ha hm => d ?_ ?_⟩
    · simp only [nestingMap, Nat.max_le] at hm
      refine a n (fun e he => ?_) hm.2
      rcases IndexMap.mem_of_insert he with he | rfl
      · exact ha e he
      · exact Nat.le_trans h1.1 hm.1
    · intro e he
      rcases IndexMap.mem_of_insert he with he | rfl
      · exact ha e he
      · exact h1.2.1
    · intro e he
      rcases IndexMap.mem_of_insert he with he | rfl
      · exact ha e he
      · exact h1.2.2 (hm _ (.head _))
    · exact fun e he => hm e (.tail _ he)

end Rops
