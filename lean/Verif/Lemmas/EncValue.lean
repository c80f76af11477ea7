import Verif.Spec.Syntax
import Verif.Lemmas.Base64
import Verif.Lemmas.Encoding
/-! Lemmas on the text form of encrypted values. -/

namespace Rops
open Spec

theorem Base64.trim_unpadded (b : Bytes) :
    trimEndMatches '=' (encodeNoPad b) = encodeNoPad b := by
  rw [trimEndMatches_of_last_ne]
  intro h
  exact pad_not_mem_encodeNoPad b (List.mem_of_getLast? h)

theorem denotes_iff_decode {s : Str} {b : Bytes} : Denotes s b ↔ Base64.decode s = some b := by
  unfold Denotes
  rw [← Base64.encode_eq_spec]
  rw [Base64.decode_eq_some]
  constructor
  · rintro ⟨m, n, h⟩
    have h2 := congrArg (trimEndMatches '=') h
    rw [trimEndMatches_replicate, trimEndMatches_replicate, Base64.trim_encode] at h2
    obtain ⟨k, hk⟩ := trimEndMatches_spec '=' s
    exact ⟨k, by rw [← h2]; exact hk⟩
  · rintro ⟨n, rfl⟩
    obtain ⟨k, hk⟩ := Base64.encode_eq b
    refine ⟨k, n, ?_⟩
    rw [hk]
    simp [Nat.add_comm]

theorem comma_not_mem_of_denotes {s : Str} {b : Bytes} (h : Denotes s b) : ',' ∉ s := by
  unfold Denotes at h
  rw [← Base64.encode_eq_spec] at h
  obtain ⟨m, n, h⟩ := h
  intro hm
  have : ',' ∈ Base64.encode b ++ List.replicate n '=' := by
    rw [← h]; exact List.mem_append_left _ hm
  rcases List.mem_append.1 this with h1 | h1
  · exact Base64.comma_not_mem_encode b h1
  · have := (List.mem_replicate.1 h1).2
    exact absurd this (by decide)

theorem zeroFilled_iff {n : Nat} {s : Str} {b : Bytes} :
    DenotesZeroFilled n s b ↔ parseSlice n s = .ok b := by
  unfold parseSlice Base64.decodeSlice
  constructor
  · rintro ⟨b', h1, h2, rfl⟩
    rw [denotes_iff_decode.1 h1]
    simp [h2]
  · intro h
    cases hd : Base64.decode s with
    | none => rw [hd] at h; cases h
    | some b' =>
      rw [hd] at h
      by_cases hl : b'.length ≤ n
      · simp only [hl, if_true] at h
        cases h
        exact ⟨b', denotes_iff_decode.2 hd, hl, rfl⟩
      · simp only [hl, if_false] at h
        cases h

theorem comma_not_mem_of_zeroFilled {n : Nat} {s : Str} {b : Bytes}
    (h : DenotesZeroFilled n s b) : ',' ∉ s := by
  obtain ⟨b', h, _⟩ := h
  exact comma_not_mem_of_denotes h

theorem parseData_iff {s : Str} {b : Bytes} : parseData s = .ok b ↔ Denotes s b := by
  rw [denotes_iff_decode]
  unfold parseData
  cases Base64.decode s <;> simp

theorem component_iff {p : EncPart} {pre : Str} {o : Option Str} {r : Str} :
    component p pre o = .ok r ↔ o = some (pre ++ r) := by
  unfold component
  cases o with
  | none => simp
  | some s =>
    simp only [Option.some.injEq]
    rw [← stripPrefix_eq_some]
    cases stripPrefix pre s <;> simp

theorem Variant.toText_eq (v : Variant) : v.toText = typeName v := by cases v <;> rfl

theorem EncValue.toText_eq (C : Cipher) (e : EncValue) : e.toText C = encText C e := by
  unfold EncValue.toText encText
  rw [Base64.encode_eq_spec, Base64.encode_eq_spec, Base64.encode_eq_spec, Variant.toText_eq]

theorem Variant.parse_toText (v : Variant) : Variant.parse v.toText = some v := by
  cases v <;> decide

theorem Variant.parse_eq_some {s : Str} {v : Variant} : Variant.parse s = some v ↔ s = v.toText := by
  constructor
  · intro h
    unfold Variant.parse at h
    split at h
    · cases h; assumption
    split at h
    · cases h; assumption
    split at h
    · cases h; assumption
    split at h
    · cases h; assumption
    · cases h
  · rintro rfl; exact Variant.parse_toText v

theorem comma_not_mem_variant (v : Variant) : ',' ∉ v.toText := by
  cases v <;> decide

theorem Except.bind_eq_ok {ε α β} {x : Except ε α} {f : α → Except ε β} {b : β} :
    x.bind f = .ok b ↔ ∃ a, x = .ok a ∧ f a = .ok b := by
  cases x <;> simp [Except.bind]

theorem Except.bind_eq_ok' {ε α β} {x : Except ε α} {f : α → Except ε β} {b : β} :
    (x >>= f) = .ok b ↔ ∃ a, x = .ok a ∧ f a = .ok b := Except.bind_eq_ok

theorem encBody_iff {s r : Str} : encBody s = .ok r ↔ s = c!"ENC[" ++ r ++ c!"]" := by
  unfold encBody
  constructor
  · intro h
    cases h1 : stripPrefix c!"ENC" s with
    | none => rw [h1] at h; cases h
    | some s1 =>
      rw [h1] at h
      simp only at h
      cases h2 : stripPrefix c!"[" s1 with
      | none => rw [h2] at h; cases h
      | some s2 =>
        rw [h2] at h
        simp only at h
        cases h3 : stripSuffixChar ']' s2 with
        | none => rw [h3] at h; cases h
        | some s3 =>
          rw [h3] at h
          cases h
          rw [stripPrefix_eq_some.1 h1, stripPrefix_eq_some.1 h2, stripSuffixChar_eq_some.1 h3]
          rfl
  · rintro rfl
    have h1 : stripPrefix c!"ENC" (c!"ENC[" ++ r ++ c!"]")
        = some (c!"[" ++ (r ++ c!"]")) := by
      rw [stripPrefix_eq_some]; rfl
    have h2 : stripPrefix c!"[" (c!"[" ++ (r ++ c!"]")) = some (r ++ c!"]") :=
      stripPrefix_append _ _
    have h3 : stripSuffixChar ']' (r ++ c!"]") = some r := stripSuffixChar_append _ _
    rw [h1]; simp only; rw [h2]; simp only; rw [h3]

theorem parseComponents_iff {C : Cipher} {parts : List Str} {e : EncValue} :
    EncValue.parseComponents C parts = .ok e ↔
      ∃ data iv tag more,
        parts = C.name :: (c!"data:" ++ data) :: (c!"iv:" ++ iv) :: (c!"tag:" ++ tag)
          :: (c!"type:" ++ e.variant.toText) :: more
        ∧ Denotes data e.data ∧ DenotesZeroFilled C.nonceSize iv e.nonce
        ∧ DenotesZeroFilled C.tagSize tag e.tag := by
  constructor
  · intro h
    cases parts with
    | nil => cases h
    | cons name parts =>
      simp only [EncValue.parseComponents] at h
      split at h
      · cases h
      · rename_i hname
        simp only [Except.bind_eq_ok', Except.bind_eq_ok] at h
        obtain ⟨data, ⟨d, hd1, hd2⟩, nonce, ⟨i, hi1, hi2⟩, tag, ⟨t, ht1, ht2⟩, ty, hty, h⟩ := h
        cases hv : Variant.parse ty with
        | none => rw [hv] at h; cases h
        | some v =>
          rw [hv] at h
          cases h
          rw [component_iff] at hd1 hi1 ht1 hty
          rw [Variant.parse_eq_some] at hv
          rcases parts with _ | ⟨p0, _ | ⟨p1, _ | ⟨p2, _ | ⟨p3, more⟩⟩⟩⟩
          · simp at hd1
          · simp at hi1
          · simp at ht1
          · simp at hty
          · simp only [List.getElem?_cons_zero, List.getElem?_cons_succ, Option.some.injEq] at hd1 hi1 ht1 hty
            have hname : name = C.name := Decidable.of_not_not hname
            refine ⟨d, i, t, more, ?_, parseData_iff.1 hd2, zeroFilled_iff.2 hi2, zeroFilled_iff.2 ht2⟩
            simp [hd1, hi1, ht1, hty, hname, hv]
  · rintro ⟨data, iv, tag, more, rfl, h1, h2, h3⟩
    simp only [EncValue.parseComponents]
    rw [if_neg (by simp)]
    simp only [Except.bind_eq_ok', Except.bind_eq_ok]
    refine ⟨e.data, ⟨data, component_iff.2 rfl, parseData_iff.2 h1⟩,
      e.nonce, ⟨iv, component_iff.2 rfl, zeroFilled_iff.1 h2⟩,
      e.tag, ⟨tag, component_iff.2 rfl, zeroFilled_iff.1 h3⟩,
      e.variant.toText, component_iff.2 rfl, ?_⟩
    rw [Variant.parse_toText]

theorem splitOn_parts {C : Cipher} (hC : ',' ∉ C.name) {body : Str} {data iv tag ty : Str}
    (hd : ',' ∉ data) (hi : ',' ∉ iv) (ht : ',' ∉ tag) (hty : ',' ∉ ty) :
    (∃ more, splitOn ',' body = C.name :: (c!"data:" ++ data) :: (c!"iv:" ++ iv) ::
      (c!"tag:" ++ tag) :: (c!"type:" ++ ty) :: more) ↔
    ∃ rest, body = C.name ++ c!",data:" ++ data ++ c!",iv:" ++ iv ++ c!",tag:" ++ tag
      ++ c!",type:" ++ ty ++ rest ∧ (rest = [] ∨ ∃ r, rest = ',' :: r) := by
  constructor
  · rintro ⟨more, h⟩
    have hj := joinWith_splitOn ',' body
    rw [h] at hj
    cases more with
    | nil =>
      refine ⟨[], ?_, .inl rfl⟩
      rw [← hj, joinWith, joinWith, joinWith, joinWith, joinWith]
      simp only [List.append_assoc, List.append_nil]
      rfl
    | cons m ms =>
      refine ⟨',' :: joinWith ',' (m :: ms), ?_, .inr ⟨_, rfl⟩⟩
      rw [← hj, joinWith, joinWith, joinWith, joinWith, joinWith]
      simp only [List.append_assoc]
      rfl
  · rintro ⟨rest, rfl, hr⟩
    have h1 : ',' ∉ c!"data:" ++ data := by
      rw [List.mem_append, not_or]; exact ⟨by decide, hd⟩
    have h2 : ',' ∉ c!"iv:" ++ iv := by
      rw [List.mem_append, not_or]; exact ⟨by decide, hi⟩
    have h3 : ',' ∉ c!"tag:" ++ tag := by
      rw [List.mem_append, not_or]; exact ⟨by decide, ht⟩
    have h4 : ',' ∉ c!"type:" ++ ty := by
      rw [List.mem_append, not_or]; exact ⟨by decide, hty⟩
    have hb : C.name ++ c!",data:" ++ data ++ c!",iv:" ++ iv ++ c!",tag:" ++ tag
        ++ c!",type:" ++ ty ++ rest
        = C.name ++ ',' :: ((c!"data:" ++ data) ++ ',' :: ((c!"iv:" ++ iv) ++ ',' ::
          ((c!"tag:" ++ tag) ++ ',' :: ((c!"type:" ++ ty) ++ rest)))) := by
      simp only [List.append_assoc]
      rfl
    rw [hb, splitOn_append _ hC, splitOn_append _ h1, splitOn_append _ h2, splitOn_append _ h3]
    rcases hr with rfl | ⟨r, rfl⟩
    · rw [List.append_nil, splitOn_of_not_mem h4]
      exact ⟨[], rfl⟩
    · rw [splitOn_append _ h4]
      exact ⟨splitOn ',' r, rfl⟩

/-- The parser accepts exactly the specified texts. -/
theorem EncValue.parse_iff {C : Cipher} (hC : ',' ∉ C.name) {s : Str} {e : EncValue} :
    EncValue.parse C s = .ok e ↔ EncSyntax C s e := by
  unfold EncValue.parse EncSyntax
  rw [← Variant.toText_eq]
  rw [Except.bind_eq_ok]
  simp only [parseComponents_iff, encBody_iff]
  constructor
  · rintro ⟨body, hs, data, iv, tag, more, hsp, h1, h2, h3⟩
    obtain ⟨rest, hb, hr⟩ := (splitOn_parts hC (comma_not_mem_of_denotes h1)
      (comma_not_mem_of_zeroFilled h2) (comma_not_mem_of_zeroFilled h3)
      (comma_not_mem_variant e.variant)).1 ⟨more, hsp⟩
    refine ⟨data, iv, tag, rest, ?_, hr, h1, h2, h3⟩
    rw [hs, hb]
    simp only [List.append_assoc]
  · rintro ⟨data, iv, tag, rest, hs, hr, h1, h2, h3⟩
    obtain ⟨more, hsp⟩ := (splitOn_parts hC (comma_not_mem_of_denotes h1)
      (comma_not_mem_of_zeroFilled h2) (comma_not_mem_of_zeroFilled h3)
      (comma_not_mem_variant e.variant)).2 ⟨rest, rfl, hr⟩
    refine ⟨_, ?_, data, iv, tag, more, hsp, h1, h2, h3⟩
    rw [hs]
    simp only [List.append_assoc]

theorem denotes_encode (b : Bytes) : Denotes (Base64.encode b) b := ⟨0, 0, by rw [Base64.encode_eq_spec]⟩

theorem zeroFilled_encode {n : Nat} {b : Bytes} (h : b.length = n) :
    DenotesZeroFilled n (Base64.encode b) b :=
  ⟨b, denotes_encode b, by omega, by simp [← h]⟩

theorem EncValue.syntax_toText {C : Cipher} {e : EncValue} (h : e.Sized C) :
    EncSyntax C (e.toText C) e :=
  ⟨Base64.encode e.data, Base64.encode e.nonce, Base64.encode e.tag, [],
    by unfold EncValue.toText; rw [List.append_nil, Variant.toText_eq], .inl rfl, denotes_encode _,
    zeroFilled_encode h.nonce_length, zeroFilled_encode h.tag_length⟩

theorem EncValue.parse_toText {C : Cipher} (hC : ',' ∉ C.name) {e : EncValue} (h : e.Sized C) :
    EncValue.parse C (e.toText C) = .ok e :=
  (EncValue.parse_iff hC).2 (EncValue.syntax_toText h)

theorem EncValue.sized_of_parse {C : Cipher} (hC : ',' ∉ C.name) {s : Str} {e : EncValue}
    (h : EncValue.parse C s = .ok e) : e.Sized C := by
  obtain ⟨_, _, _, _, _, _, _, ⟨b, _, hb, h2⟩, b', _, hb', h3⟩ := (EncValue.parse_iff hC).1 h
  constructor
  · rw [h2]; simp; omega
  · rw [h3]; simp; omega

end Rops
