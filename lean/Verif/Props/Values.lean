import Verif.Lemmas.Value
import Verif.Lemmas.EncValue
import Verif.Lemmas.Tree
import Verif.Spec.Toy
/-!
# Properties of leaf values and their text (C03 - C06)
-/

namespace Rops.Props
open Spec

/-- C03. Writing an encrypted value as text and parsing it gives the same value. -/
theorem C03_enc_text_round_trip (C : Cipher) (hC : C.Lawful) (e : EncValue) (he : e.Sized C) :
    EncValue.parse C (e.toText C) = .ok e :=
  EncValue.parse_toText hC.name_no_comma he

example : (⟨[221, 45, 68, 245, 169, 191], [255, 0], [1, 2], .string⟩ : EncValue).toText Toy.cipher
    = c!"ENC[AES256_GCM,data:3S1E9am/,iv:AQI=,tag:/wA=,type:str]" := by decide +kernel
example : (⟨[221, 45, 68, 245, 169, 191], [255, 0], [1, 2], .string⟩ : EncValue).Sized Toy.cipher :=
  ⟨rfl, rfl⟩

/-- C03. The text, exactly: the cipher's name and base64 texts (RFC 4648) of the parts. -/
theorem C03_enc_text (C : Cipher) (e : EncValue) : e.toText C = encText C e := EncValue.toText_eq C e

/-- C04, first part. Two encrypted values with the same text are the same value. -/
theorem C04_enc_text_injective (C : Cipher) (hC : C.Lawful) (e e' : EncValue)
    (he : e.Sized C) (he' : e'.Sized C) (h : e.toText C = e'.toText C) : e = e' := by
  have h1 := C03_enc_text_round_trip C hC e he
  rw [h, C03_enc_text_round_trip C hC e' he'] at h1
  cases h1
  rfl

/-- C04, second part. The accepted texts, exactly. -/
theorem C04_enc_text_accepted_iff (C : Cipher) (hC : C.Lawful) (s : Str) (e : EncValue) :
    EncValue.parse C s = .ok e ↔ EncSyntax C s e :=
  EncValue.parse_iff hC.name_no_comma

/-- C04, third part. A text whose base64 parts are padded as the encoder pads and
of full size and that has no further components is the text of the value it is
read as. -/
theorem C04_enc_text_canonical (C : Cipher) (hC : C.Lawful) (data iv tag : Bytes) (ty : Variant)
    (e : EncValue) (hiv : iv.length = C.nonceSize) (htag : tag.length = C.tagSize)
    (h : EncValue.parse C (c!"ENC[" ++ C.name ++ c!",data:" ++ base64 data
      ++ c!",iv:" ++ base64 iv ++ c!",tag:" ++ base64 tag
      ++ c!",type:" ++ typeName ty ++ c!"]") = .ok e) :
    e = ⟨data, tag, iv, ty⟩ ∧ e.toText C = c!"ENC[" ++ C.name ++ c!",data:" ++ base64 data
      ++ c!",iv:" ++ base64 iv ++ c!",tag:" ++ base64 tag
      ++ c!",type:" ++ typeName ty ++ c!"]" := by
  have h1 := C03_enc_text_round_trip C hC ⟨data, tag, iv, ty⟩ ⟨hiv, htag⟩
  rw [EncValue.toText_eq] at h1
  simp only [encText] at h1
  rw [h1] at h
  cases h
  exact ⟨rfl, EncValue.toText_eq C _⟩

/-- C04, negative side: the reading is lenient. A short `iv` is filled with zeros,
extra components and extra padding are ignored. -/
theorem C04_enc_text_lenient (C : Cipher) (hC : C.Lawful) (data : Bytes) (ty : Variant) (junk : Str) :
    EncValue.parse C (c!"ENC[" ++ C.name ++ c!",data:" ++ base64 data ++ c!"==="
      ++ c!",iv:" ++ c!",tag:" ++ c!",type:" ++ typeName ty ++ c!"," ++ junk
      ++ c!"]")
      = .ok ⟨data, List.replicate C.tagSize 0, List.replicate C.nonceSize 0, ty⟩ := by
  rw [C04_enc_text_accepted_iff C hC]
  refine ⟨base64 data ++ c!"===", [], [], c!"," ++ junk, ?_, .inr ⟨junk, rfl⟩,
    ⟨0, 3, ?_⟩, ⟨[], ⟨0, 0, rfl⟩, by simp, by simp⟩, ⟨[], ⟨0, 0, rfl⟩, by simp, by simp⟩⟩
  · simp only [List.append_assoc, List.nil_append]
  · rw [List.replicate_zero, List.append_nil]; rfl

/-- C05. A value read back from its bytes with its own type is the same value. -/
theorem C05_value_bytes_round_trip (fl : FloatOps) (v : Value) (hv : v.Canonical fl) :
    Value.fromBytes fl v.asBytes v.variant = .ok v :=
  Value.fromBytes_asBytes hv

/-- C05. The bytes of every value, exactly. -/
theorem C05_value_bytes (v : Value) : v.asBytes = plainBytes v := Value.asBytes_eq v

/-- C05, integers: the bytes of an integer are its decimal text, over the whole range. -/
theorem C05_integer_text (i : Int64) :
    ∃ s : Str, (Value.integer i).asBytes = utf8 s ∧ parseInt s = some i
      ∧ s = (toString i.toInt).toList := by
  refine ⟨showInt i, rfl, parseInt_showInt i, ?_⟩
  exact utf8_injective (Value.asBytes_eq (.integer i))

example : Value.fromBytes Toy.floats (utf8 c!"-9223372036854775808") .integer
    = .ok (.integer Int64.minValue) :=
  C05_value_bytes_round_trip Toy.floats (.integer Int64.minValue) trivial

example : Value.fromBytes Toy.floats (utf8 c!"1.5") .float = .ok (.float c!"1.5") :=
  C05_value_bytes_round_trip Toy.floats (.float c!"1.5") (by show Toy.floats.reprint _ = _; decide)

theorem isDigit_iff {c : Char} : c.isDigit = true ↔ ∃ d, d < 10 ∧ c = Char.ofNat (48 + d) := by
  constructor
  · intro h
    simp only [Char.isDigit, ge_iff_le, Bool.and_eq_true, decide_eq_true_eq, UInt32.le_iff_toNat_le] at h
    have h1 : (48 : Nat) ≤ c.val.toNat := h.1
    have h2 : c.val.toNat ≤ 57 := h.2
    refine ⟨c.val.toNat - 48, by omega, ?_⟩
    rw [show 48 + (c.val.toNat - 48) = c.toNat by unfold Char.toNat; omega, Char.ofNat_toNat]
  · rintro ⟨d, hd, rfl⟩
    have : ∀ d, d < 10 → (Char.ofNat (48 + d)).isDigit = true := by decide
    exact this d hd

theorem digit_val {d : Nat} (h : d < 10) : (Char.ofNat (48 + d)).toNat - '0'.toNat = d := by
  have : ∀ d, d < 10 → (Char.ofNat (48 + d)).toNat - '0'.toNat = d := by decide
  exact this d h

theorem decimal_iff {s : Str} {n : Nat} : Decimal s n ↔ parseNat s = some n := by
  constructor
  · intro h
    have key : s ≠ [] ∧ (∀ c ∈ s, c.isDigit = true) ∧ Nat.ofDigitChars 10 s 0 = n := by
      induction h with
      | digit d hd =>
        refine ⟨by simp, ?_, ?_⟩
        · intro c hc
          simp only [List.mem_cons, List.not_mem_nil, or_false] at hc
          exact isDigit_iff.2 ⟨d, hd, hc⟩
        · simp only [Nat.ofDigitChars, List.foldl_cons, List.foldl_nil, digit_val hd]; omega
      | more d hs hd ih =>
        obtain ⟨h1, h2, h3⟩ := ih
        refine ⟨by simp, ?_, ?_⟩
        · intro c hc
          simp only [List.mem_append, List.mem_cons, List.not_mem_nil, or_false] at hc
          rcases hc with hc | hc
          · exact h2 c hc
          · exact isDigit_iff.2 ⟨d, hd, hc⟩
        · unfold Nat.ofDigitChars at h3 ⊢
          rw [List.foldl_append, h3, List.foldl_cons, List.foldl_nil, digit_val hd]
    unfold parseNat
    rw [if_pos ⟨key.1, List.all_eq_true.2 key.2.1⟩, key.2.2]
  · intro h
    unfold parseNat at h
    split at h
    · rename_i hs
      cases h
      obtain ⟨hne, hall⟩ := hs
      rw [List.all_eq_true] at hall
      have key : ∀ l : Str, ∀ s n, Decimal s n → (∀ c ∈ l, c.isDigit = true) →
          Decimal (s ++ l) (Nat.ofDigitChars 10 l n) := by
        intro l
        induction l with
        | nil => intro s n h _; simpa [Nat.ofDigitChars] using h
        | cons c r ih =>
          intro s n h hc
          obtain ⟨d, hd, rfl⟩ := isDigit_iff.1 (hc _ List.mem_cons_self)
          have := ih _ _ (h.more d hd) fun c hc' => hc c (List.mem_cons_of_mem _ hc')
          unfold Nat.ofDigitChars at this ⊢
          rw [List.foldl_cons, digit_val hd]
          simpa using this
      cases s with
      | nil => exact absurd rfl hne
      | cons c r =>
        obtain ⟨d, hd, rfl⟩ := isDigit_iff.1 (hall _ List.mem_cons_self)
        have := key r _ _ (.digit d hd) fun c hc' => hall c (List.mem_cons_of_mem _ hc')
        unfold Nat.ofDigitChars at this ⊢
        rw [List.foldl_cons, digit_val hd]
        simpa using this
    · cases h

theorem toInt64?_eq {n : Int} {i : Int64} : toInt64? n = some i ↔ n = i.toInt := by
  unfold toInt64?
  have hlo := i.le_toInt
  have hhi := i.toInt_lt
  constructor
  · intro h
    split at h
    · rename_i hr
      cases h
      rw [Int64.toInt_ofInt_of_le hr.1 hr.2]
    · cases h
  · rintro rfl
    rw [if_pos ⟨hlo, hhi⟩, Int64.ofInt_toInt]

theorem parseInt_iff {s : Str} {i : Int64} : parseInt s = some i ↔ IntText s i.toInt := by
  have hno : ∀ {c ds n}, Decimal (c :: ds) n → c.isDigit = true := by
    intro c ds n h
    have := decimal_iff.1 h
    unfold parseNat at this
    split at this
    · rename_i hs
      exact List.all_eq_true.1 hs.2 _ List.mem_cons_self
    · cases this
  unfold parseInt IntText
  split
  · rename_i ds
    simp only [Option.bind_eq_some_iff, toInt64?_eq]
    constructor
    · rintro ⟨n, h1, h2⟩
      exact ⟨ds, n, decimal_iff.2 h1, .inr ⟨rfl, h2.symm⟩⟩
    · rintro ⟨ds', n, h1, ⟨h2 | h2, h3⟩ | ⟨h2, h3⟩⟩
      · subst h2
        exact absurd (hno h1) (by decide)
      · cases h2
      · cases h2
        exact ⟨n, decimal_iff.1 h1, h3.symm⟩
  · rename_i ds
    simp only [Option.bind_eq_some_iff, toInt64?_eq]
    constructor
    · rintro ⟨n, h1, h2⟩
      exact ⟨ds, n, decimal_iff.2 h1, .inl ⟨.inr rfl, h2.symm⟩⟩
    · rintro ⟨ds', n, h1, ⟨h2 | h2, h3⟩ | ⟨h2, h3⟩⟩
      · subst h2
        exact absurd (hno h1) (by decide)
      · cases h2
        exact ⟨n, decimal_iff.1 h1, h3.symm⟩
      · cases h2
  · rename_i hm hp
    simp only [Option.bind_eq_some_iff, toInt64?_eq]
    constructor
    · rintro ⟨n, h1, h2⟩
      exact ⟨s, n, decimal_iff.2 h1, .inl ⟨.inl rfl, h2.symm⟩⟩
    · rintro ⟨ds', n, h1, ⟨h2 | h2, h3⟩ | ⟨h2, h3⟩⟩
      · subst h2
        exact ⟨n, decimal_iff.1 h1, h3.symm⟩
      · exact absurd h2 (hp _)
      · exact absurd h2 (hm _)

theorem utf8?_iff {b : Bytes} {s : Str} : utf8? b = some s ↔ b = utf8 s :=
  ⟨fun h => (utf8_of_utf8? h).symm, fun h => h ▸ utf8?_utf8 s⟩

/-- C05. Which bytes are read as which value of which type, exactly. -/
theorem C05_read_iff (fl : FloatOps) (b : Bytes) (ty : Variant) (v : Value) :
    Value.fromBytes fl b ty = .ok v ↔ ReadsAs fl b ty v := by
  have hvar : Value.fromBytes fl b ty = .ok v → v.variant = ty := fun h => (Value.canonical_of_fromBytes h).2
  have hvar2 : ReadsAs fl b ty v → v.variant = ty := by
    intro h
    cases ty <;> cases v <;> first | rfl | exact h.elim
  by_cases hty : v.variant = ty
  · subst hty
    cases v with
    | string s =>
      simp only [Value.variant, Value.fromBytes, ReadsAs]
      rw [← utf8?_iff]
      cases utf8? b <;> simp
    | boolean v =>
      have h1 : Value.boolBytes true = utf8 c!"True" := rfl
      have h2 : Value.boolBytes false = utf8 c!"False" := rfl
      have h3 := boolBytes_ne
      simp only [Value.variant, Value.fromBytes, ReadsAs]
      rw [h1, h2] at *
      by_cases hb : b = utf8 c!"True"
      · subst hb
        cases v
        · simp [h3.symm]
        · simp
      · rw [if_neg hb]
        by_cases hb' : b = utf8 c!"False"
        · subst hb'
          cases v
          · simp
          · simp [h3]
        · rw [if_neg hb']
          cases v <;> simp [hb, hb']
    | integer i =>
      simp only [Value.variant, Value.fromBytes, ReadsAs, ← utf8?_iff]
      cases utf8? b with
      | none => simp
      | some s =>
        simp only [Option.some.injEq, exists_eq_left', ← parseInt_iff]
        cases parseInt s <;> simp
    | float t =>
      simp only [Value.variant, Value.fromBytes, ReadsAs, ← utf8?_iff]
      cases utf8? b with
      | none => simp
      | some s =>
        simp only [Option.some.injEq, exists_eq_left']
        cases fl.reprint s <;> simp
  · exact ⟨fun h => absurd (hvar h) hty, fun h => absurd (hvar2 h) hty⟩

/-- Signs and leading zeros are accepted, other spellings of Booleans are not. -/
example : Value.fromBytes Toy.floats (utf8 c!"+5") .integer = .ok (.integer 5) ∧
    Value.fromBytes Toy.floats (utf8 c!"-007") .integer = .ok (.integer (-7)) ∧
    Value.fromBytes Toy.floats (utf8 c!"9223372036854775808") .integer = .error .integer ∧
    Value.fromBytes Toy.floats (utf8 c!"true") .boolean = .error (.boolean (utf8 c!"true")) := by decide +kernel

/-- C06. Encoding is base64 as in RFC 4648. -/
theorem C06_base64_encode (b : Bytes) : Base64.encode b = base64 b := Base64.encode_eq_spec b

/-- C06, first part. Decoding inverts encoding. -/
theorem C06_base64_round_trip (b : Bytes) : Base64.decode (Base64.encode b) = some b :=
  Base64.decode_encode b

/-- C06, second part. A text decodes to `b` exactly when it is the encoding of `b` up to
trailing `=` characters. -/
theorem C06_base64_canonical (s : Str) (b : Bytes) :
    Base64.decode s = some b ↔ SameUpToPadding s (base64 b) :=
  denotes_iff_decode.symm

/-- C06, fixed size buffers: exactly full size texts give all the bytes, shorter ones are
zero filled, longer ones panic. -/
theorem C06_base64_slice (n : Nat) (b : Bytes) :
    Base64.decodeSlice n (Base64.encode b) =
      if n < b.length then .panic else .ok (b ++ List.replicate (n - b.length) 0) := by
  unfold Base64.decodeSlice
  rw [C06_base64_round_trip]
  by_cases h : b.length ≤ n
  · rw [if_neg (by omega)]; simp [h]
  · rw [if_pos (by omega)]; simp [h]

example : Base64.encode [0, 16, 131, 255] = c!"ABCD/w==" := by decide
example : SameUpToPadding c!"ABCD/w" (base64 [0, 16, 131, 255]) := ⟨2, 0, by decide⟩
example : Base64.decode c!"ABCD/x==" = none := by decide

end Rops.Props
