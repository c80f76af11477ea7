import Verif.Spec.JsonShown
import Verif.Lemmas.YamlShown
import Verif.Lemmas.JsonText
/-!
# The one text of a JSON document
-/

namespace Rops

open Spec

/-! ## Strings -/

theorem jsonHex_lower : ∀ v : Fin 16, HexDigit (jsonHex v) v ∧ ¬ ('A' ≤ jsonHex v ∧ jsonHex v ≤ 'F') := by
  unfold HexDigit
  decide

theorem hexDigit_lower {c : Char} {v : Nat} (h : HexDigit c v) (hc : ¬ ('A' ≤ c ∧ c ≤ 'F')) : c = jsonHex v := by
  have hv := hexDigit_lt h
  have key : ∀ v : Fin 16, (v.val < 10 → Char.ofNat (48 + v) = jsonHex v) ∧
      (10 ≤ v.val → ('A' ≤ Char.ofNat (55 + v) ∧ Char.ofNat (55 + v) ≤ 'F') ∧ Char.ofNat (87 + v) = jsonHex v) := by decide
  obtain ⟨k1, k2⟩ := key ⟨v, hv⟩
  rcases h with ⟨h, rfl⟩ | ⟨h, _, rfl | rfl⟩
  · exact k1 h
  · exact (hc (k2 h).1).elim
  · exact (k2 h).2

theorem jsonChar_shown (c : Char) : JsonCharShown c (jsonEscape c) := by
  have hl : ∀ {c : Char} {n : Nat} {e : Char}, c.toNat = n → (e, n) ∈ shownLetters → JsonCharShown c ['\\', e] := by
    rintro c n e rfl h
    exact .letter h
  unfold jsonEscape
  split; · rename_i h; exact hl (n := c.toNat) rfl (by rw [h]; decide)
  split; · rename_i h; exact hl (n := c.toNat) rfl (by rw [h]; decide)
  split; · rename_i h; exact hl h (by decide)
  split; · rename_i h; exact hl h (by decide)
  split; · rename_i h; exact hl h (by decide)
  split; · rename_i h; exact hl h (by decide)
  split; · rename_i h; exact hl h (by decide)
  rename_i h1 h2 h3 h4 h5 h6 h7
  split
  · rename_i h8
    have g1 := jsonHex_lower ⟨c.toNat / 16, by omega⟩
    have g2 := jsonHex_lower ⟨c.toNat % 16, by omega⟩
    have g0 := jsonHex_lower 0
    refine .number h8 ?_ ⟨_, _, _, _, 0, 0, _, _, rfl, g0.1, g0.1, g1.1, g2.1, by simp only; omega⟩ ?_
    · intro e he
      simp only [shownLetters, List.mem_cons, Prod.mk.injEq, List.not_mem_nil, or_false] at he
      omega
    · intro d hd
      simp only [List.mem_cons, List.not_mem_nil, or_false] at hd
      rcases hd with rfl | rfl | rfl | rfl
      · exact g0.2
      · exact g0.2
      · exact g1.2
      · exact g2.2
  · exact .self (by omega) h1 h2

theorem jsonChar_only {c : Char} {x : Str} (h : JsonCharShown c x) : x = jsonEscape c := by
  cases h with
  | self h1 h2 h3 =>
    unfold jsonEscape
    rw [if_neg h2, if_neg h3, if_neg (by omega), if_neg (by omega), if_neg (by omega), if_neg (by omega), if_neg (by omega), if_neg (by omega)]
  | @letter e h =>
    have hc : ∀ {n : Nat}, c.toNat = n → c = Char.ofNat n := fun h => by rw [← h, Char.ofNat_toNat]
    simp only [shownLetters, List.mem_cons, Prod.mk.injEq, List.not_mem_nil, or_false] at h
    rcases h with ⟨rfl, h⟩ | ⟨rfl, h⟩ | ⟨rfl, h⟩ | ⟨rfl, h⟩ | ⟨rfl, h⟩ | ⟨rfl, h⟩ | ⟨rfl, h⟩ <;> rw [hc h] <;> decide
  | @number y h1 h2 h3 h4 =>
    obtain ⟨a, b, d, e, v1, v2, v3, v4, rfl, g1, g2, g3, g4, hv⟩ := h3
    have l1 := hexDigit_lt g1
    have l2 := hexDigit_lt g2
    have l3 := hexDigit_lt g3
    have l4 := hexDigit_lt g4
    have e1 : v1 = 0 := by omega
    have e2 : v2 = 0 := by omega
    have e3 : v3 = c.toNat / 16 := by omega
    have e4 : v4 = c.toNat % 16 := by omega
    rw [hexDigit_lower g1 (h4 _ (by simp)), hexDigit_lower g2 (h4 _ (by simp)), hexDigit_lower g3 (h4 _ (by simp)), hexDigit_lower g4 (h4 _ (by simp)),
      e1, e2, e3, e4]
    have hne : ∀ (e : Char) (n : Nat), (e, n) ∈ shownLetters → c.toNat ≠ n := fun e n h hn => h2 e (hn ▸ h)
    unfold jsonEscape
    rw [if_neg (by rintro rfl; exact absurd h1 (by decide)), if_neg (by rintro rfl; exact absurd h1 (by decide)), if_neg (hne 'b' 8 (by decide)),
      if_neg (hne 't' 9 (by decide)), if_neg (hne 'n' 10 (by decide)), if_neg (hne 'f' 12 (by decide)), if_neg (hne 'r' 13 (by decide)), if_pos h1]
    rfl

theorem jsonChars_iff {s x : Str} : JsonCharsShown s x ↔ x = s.flatMap jsonEscape := by
  constructor
  · intro h
    induction h with
    | nil => rfl
    | cons h _ ih => rw [List.flatMap_cons, jsonChar_only h, ih]
  · rintro rfl
    induction s with
    | nil => exact .nil
    | cons c r ih => exact .cons (jsonChar_shown c) ih

theorem jsonString_iff {s x : Str} : JsonStringShown s x ↔ x = jsonQuote s := by
  unfold JsonStringShown jsonQuote
  constructor
  · rintro ⟨y, h, rfl⟩
    rw [jsonChars_iff.1 h]
  · rintro rfl
    exact ⟨_, jsonChars_iff.2 rfl, rfl⟩

/-! ## Scalars -/

theorem jsonInt_only {ds : Str} {n : Nat} (h : JsonInt ds n) : ds = Nat.toDigits 10 n := by
  have head : ∀ {x : Str} {n : Nat}, JsonInt x n → x = ['0'] ∨ ∃ c r, x = c :: r ∧ c ≠ '0' := by
    intro x n h
    rcases h.2 with h2 | h2
    · exact .inl h2
    · obtain ⟨c, r, rfl, _⟩ := int_head h
      exact .inr ⟨c, r, rfl, by simpa using h2⟩
  have h' := toDigits_int n
  have z : ∀ {x : Str} {n : Nat}, JsonInt x n → x = ['0'] → n = 0 := by
    rintro x n h rfl
    have h0 := Props.decimal_iff.1 h.1
    have h1 : parseNat ['0'] = some 0 := by decide
    rw [h1] at h0
    exact (Option.some.inj h0).symm
  rcases head h with e | e <;> rcases head h' with e' | e'
  · rw [e, e']
  · have := z h e
    have := number_pos (decimal_number h'.1) e'
    omega
  · have := z h' e'
    have := number_pos (decimal_number h.1) e
    omega
  · exact number_only (decimal_number h.1) e (decimal_number h'.1) e'

theorem jsonScalar_shown {a : JsonScalar} (h1 : ∀ n, a = .num (.negInt n) → n.toInt < 0) (h2 : ∀ f, a = .num (.float f) → ∃ x, InRange x ∧ f = x.show) :
    JsonScalarShown a (a.text serdeFloats) := by
  rcases a with (_ | _) | (n | n | s) | s
  · exact .false
  · exact .true
  · exact .natural (toDigits_int _)
  · have hn := h1 n rfl
    show JsonScalarShown _ (showInt n)
    unfold showInt
    simp only [hn, if_true]
    exact .negative (toDigits_int _) (by omega)
  · obtain ⟨x, hx, rfl⟩ := h2 s rfl
    show JsonScalarShown _ (serdeFloats.write x.show)
    have hp := parse_show hx
    have hf := float_shown hx
    unfold yamlFloat at hf
    rw [hp] at hf
    simp only [serdeFloats, hp]
    cases x with
    | finite neg v => exact .float hx hf
    | nan => exact .none hx (fun _ _ => nofun)
    | infinite n => exact .none hx (fun _ _ => nofun)
  · exact .text (jsonString_iff.2 rfl)

theorem jsonScalar_only {a : JsonScalar} {x y : Str} (h2 : ∀ f, a ≠ .num (.float f)) (h : JsonScalarShown a x) (h' : JsonScalarShown a y) : x = y := by
  cases h with
  | true => cases h'; rfl
  | false => cases h'; rfl
  | natural h => cases h' with
    | natural h' => rw [jsonInt_only h, jsonInt_only h']
  | negative h hk => cases h' with
    | negative h' hk' =>
      rw [hk] at hk'
      rw [jsonInt_only h, jsonInt_only h', Int.ofNat.inj (Int.neg_inj.1 hk')]
  | float _ _ => exact (h2 _ rfl).elim
  | none _ _ => exact (h2 _ rfl).elim
  | text h => cases h' with
    | text h' => rw [jsonString_iff.1 h, jsonString_iff.1 h']

/-! ## Values -/

theorem commas_cons (x : Str) (r : List Str) : commas (x :: r) = x ++ r.flatMap (fun y => ',' :: y) := by
  induction r generalizing x with
  | nil => simp [commas]
  | cons y r ih => rw [commas, ih y, List.flatMap_cons]; simp

theorem pretty_shown {J : JsonFloats} (P : JsonScalar → Prop) (hP : ∀ a, P a → JsonScalarShown a (a.text J)) :
    (∀ t : Json, ∀ p n, (∀ e ∈ leavesAt p t, P e.2) → JsonShown n t (Json.pretty J n t)) ∧
    (∀ l : List Json, ∀ p n, (∀ e ∈ leavesSeq p l, P e.2) → ∃ xs, JsonItemsShown n l xs ∧ Json.prettySeq J n false l = xs.flatMap (fun y => ',' :: y) ∧
      Json.prettySeq J n true l = commas xs) ∧
    (∀ m : List (Str × Json), ∀ p n, (∀ e ∈ leavesMap p m, P e.2) → ∃ xs, JsonFieldsShown n m xs ∧
      Json.prettyMap J n false m = xs.flatMap (fun y => ',' :: y) ∧ Json.prettyMap J n true m = commas xs) := by
  apply Tree.induct
  · intro l ih p n h
    obtain ⟨xs, h1, _, h3⟩ := ih p (n + 1) h
    rw [JsonShown, Json.pretty]
    cases l with
    | nil => exact .inl ⟨rfl, rfl⟩
    | cons t r =>
      refine .inr ⟨nofun, xs, h1, ?_⟩
      rw [h3]
      simp [onLine, jsonLine]
  · intro l ih p n h
    obtain ⟨xs, h1, _, h3⟩ := ih p (n + 1) h
    rw [JsonShown, Json.pretty]
    cases l with
    | nil => exact .inl ⟨rfl, rfl⟩
    | cons t r =>
      refine .inr ⟨nofun, xs, h1, ?_⟩
      rw [h3]
      simp [onLine, jsonLine]
  · intro p n _
    rw [JsonShown, Json.pretty]
  · intro a p n h
    rw [JsonShown, Json.pretty]
    exact hP a (h (p, a) (by simp [leavesAt]))
  · intro p n _
    exact ⟨[], by rw [JsonItemsShown], rfl, rfl⟩
  · intro t r iht ihr p n h
    simp only [leavesSeq, List.mem_append] at h
    obtain ⟨ys, h1, h2, _⟩ := ihr p n fun e he => h e (.inr he)
    have h0 := iht p n fun e he => h e (.inl he)
    refine ⟨_, by rw [JsonItemsShown]; exact ⟨_, _, h0, h1, rfl⟩, ?_, ?_⟩
    · rw [Json.prettySeq, h2]; simp [onLine, jsonLine]
    · rw [Json.prettySeq, h2, commas_cons]; simp [onLine, jsonLine]
  · intro p n _
    exact ⟨[], by rw [JsonFieldsShown], rfl, rfl⟩
  · intro k t r iht ihr p n h
    simp only [leavesMap, List.mem_append] at h
    obtain ⟨ys, h1, h2, _⟩ := ihr p n fun e he => h e (.inr he)
    have h0 := iht _ n fun e he => h e (.inl he)
    refine ⟨_, by rw [JsonFieldsShown]; exact ⟨_, _, _, jsonString_iff.2 rfl, h0, h1, rfl⟩, ?_, ?_⟩
    · rw [Json.prettyMap, h2]; simp [onLine, jsonLine]
    · rw [Json.prettyMap, h2, commas_cons]; simp [onLine, jsonLine]

theorem shown_json_only (P : JsonScalar → Prop) (hP : ∀ a x y, P a → JsonScalarShown a x → JsonScalarShown a y → x = y) :
    (∀ t : Json, ∀ p n x y, (∀ e ∈ leavesAt p t, P e.2) → JsonShown n t x → JsonShown n t y → x = y) ∧
    (∀ l : List Json, ∀ p n x y, (∀ e ∈ leavesSeq p l, P e.2) → JsonItemsShown n l x → JsonItemsShown n l y → x = y) ∧
    (∀ m : List (Str × Json), ∀ p n x y, (∀ e ∈ leavesMap p m, P e.2) → JsonFieldsShown n m x → JsonFieldsShown n m y → x = y) := by
  apply Tree.induct
  · intro l ih p n x y h hx hy
    rw [JsonShown] at hx hy
    rcases hx with ⟨e, rfl⟩ | ⟨e, xs, hx, rfl⟩ <;> rcases hy with ⟨e', rfl⟩ | ⟨e', ys, hy, rfl⟩
    · rfl
    · exact (e' e).elim
    · exact (e e').elim
    · rw [ih p _ _ _ h hx hy]
  · intro l ih p n x y h hx hy
    rw [JsonShown] at hx hy
    rcases hx with ⟨e, rfl⟩ | ⟨e, xs, hx, rfl⟩ <;> rcases hy with ⟨e', rfl⟩ | ⟨e', ys, hy, rfl⟩
    · rfl
    · exact (e' e).elim
    · exact (e e').elim
    · rw [ih p _ _ _ h hx hy]
  · intro p n x y _ hx hy
    rw [JsonShown] at hx hy
    rw [hx, hy]
  · intro a p n x y h hx hy
    rw [JsonShown] at hx hy
    exact hP a x y (h (p, a) (by simp [leavesAt])) hx hy
  · intro p n x y _ hx hy
    rw [JsonItemsShown] at hx hy
    rw [hx, hy]
  · intro t r iht ihr p n x y h hx hy
    simp only [leavesSeq, List.mem_append] at h
    rw [JsonItemsShown] at hx hy
    obtain ⟨x1, x2, h1, h2, rfl⟩ := hx
    obtain ⟨y1, y2, g1, g2, rfl⟩ := hy
    rw [iht p n x1 y1 (fun e he => h e (.inl he)) h1 g1, ihr p n x2 y2 (fun e he => h e (.inr he)) h2 g2]
  · intro p n x y _ hx hy
    rw [JsonFieldsShown] at hx hy
    rw [hx, hy]
  · intro k t r iht ihr p n x y h hx hy
    simp only [leavesMap, List.mem_append] at h
    rw [JsonFieldsShown] at hx hy
    obtain ⟨k1, x1, x2, h0, h1, h2, rfl⟩ := hx
    obtain ⟨k2, y1, y2, g0, g1, g2, rfl⟩ := hy
    rw [iht _ n x1 y1 (fun e he => h e (.inl he)) h1 g1, ihr p n x2 y2 (fun e he => h e (.inr he)) h2 g2, jsonString_iff.1 h0, jsonString_iff.1 g0]

end Rops
