import Verif.Spec.ReadErrors
import Verif.Props.Formats
import Verif.Props.Panics
/-!
# Why encrypted documents are refused

C30 and C55: the error of reading an encrypted document, exactly.
-/

namespace Rops.Props
open Rops Spec

theorem travList_error_iff {α β ε : Type} {f : List Str → α → Unit → Except ε (β × Unit)}
    {l : List (List Str × α)} {e : ε} : travList f l () = .error e ↔
      ∃ A p a B, l = A ++ (p, a) :: B ∧ (∀ x ∈ A, ∃ b, f x.1 x.2 () = .ok (b, ())) ∧ f p a () = .error e := by
  induction l with
  | nil => simp [travList]
  | cons x r ih =>
    obtain ⟨p, a⟩ := x
    simp only [travList]
    cases hf : f p a () with
    | error e' =>
      simp only [Except.error.injEq]
      constructor
      · rintro rfl
        exact ⟨[], p, a, r, rfl, (fun x h => by cases h), hf⟩
      · rintro ⟨A, q, b, B, h1, h2, h3⟩
        cases A with
        | nil =>
          simp only [List.nil_append, List.cons.injEq, Prod.mk.injEq] at h1
          obtain ⟨⟨rfl, rfl⟩, rfl⟩ := h1
          rw [hf] at h3
          exact Except.error.inj h3
        | cons y A =>
          simp only [List.cons_append, List.cons.injEq] at h1
          obtain ⟨rfl, rfl⟩ := h1
          obtain ⟨b, hb⟩ := h2 _ (.head _)
          rw [hf] at hb
          cases hb
    | ok y =>
      obtain ⟨y, ⟨⟩⟩ := y
      simp only
      constructor
      · intro h
        cases hr : travList f r () with
        | error e' =>
          rw [hr] at h
          cases h
          obtain ⟨A, q, b, B, h1, h2, h3⟩ := ih.1 hr
          refine ⟨(p, a) :: A, q, b, B, by rw [h1]; rfl, fun x hx => ?_, h3⟩
          rcases List.mem_cons.1 hx with rfl | hx
          · exact ⟨y, hf⟩
          · exact h2 x hx
        | ok z => rw [hr] at h; cases h
      · rintro ⟨A, q, b, B, h1, h2, h3⟩
        cases A with
        | nil =>
          simp only [List.nil_append, List.cons.injEq, Prod.mk.injEq] at h1
          obtain ⟨⟨rfl, rfl⟩, rfl⟩ := h1
          rw [hf] at h3
          cases h3
        | cons z A =>
          simp only [List.cons_append, List.cons.injEq] at h1
          obtain ⟨rfl, rfl⟩ := h1
          rw [ih.2 ⟨A, q, b, B, rfl, fun x hx => h2 x (.tail _ hx), h3⟩]

theorem rdEncAt_ok_iff {C : Cipher} {rx : RegexMatch} {cfg : Option PartialEncryption} {p : List Str} {s : Scalar} :
    (∃ l, rdEncAt C rx cfg p s () = .ok (l, ())) ↔ EncScalar C rx cfg p s := by
  constructor
  · rintro ⟨l, h⟩
    rw [rdEncAt_iff] at h
    exact ⟨fun hp => (h.1 hp).imp fun v hv => hv.2, fun hp => by
      obtain ⟨t, e, h1, _, h2⟩ := h.2 hp
      exact ⟨t, e, h1, h2⟩⟩
  · intro h
    by_cases hp : Plain rx cfg p
    · obtain ⟨v, hv⟩ := h.1 hp
      exact ⟨_, rdEncAt_iff.2 ⟨fun _ => ⟨v, rfl, hv⟩, fun hn => absurd hp hn⟩⟩
    · obtain ⟨t, e, h1, h2⟩ := h.2 hp
      exact ⟨_, rdEncAt_iff.2 ⟨fun hn => absurd hn hp, fun _ => ⟨t, e, h1, rfl, h2⟩⟩⟩

theorem rdEncAt_error_iff {C : Cipher} {rx : RegexMatch} {cfg : Option PartialEncryption} {p : List Str} {s : Scalar}
    {e : FormatError} : rdEncAt C rx cfg p s () = .error e ↔ Refused C rx cfg p s e := by
  by_cases hp : Plain rx cfg p
  · simp only [rdEncAt, escape_eq.1 hp, rdEnc, if_true]
    cases s with
    | int n =>
      simp only [rd]
      by_cases hn : -2 ^ 63 ≤ n ∧ n < 2 ^ 63
      · rw [if_pos hn]
        constructor
        · intro h; cases h
        · intro h
          cases h with
          | range _ _ h => exact absurd hn h
          | plaintext _ h => exact absurd hp h
      · rw [if_neg hn]
        constructor
        · intro h; cases h; exact .range n hp hn
        · intro h
          cases h with
          | range _ _ h => rfl
          | plaintext _ h => exact absurd hp h
    | str t =>
      constructor
      · intro h; cases h
      · intro h
        cases h with
        | text _ _ h => exact absurd hp h
        | plaintext _ h => exact absurd hp h
    | _ =>
      constructor
      · intro h; cases h
      · intro h
        cases h with
        | plaintext _ h => exact absurd hp h
  · simp only [rdEncAt, escape_eq.2 hp, rdEnc, Bool.false_eq_true, if_false]
    cases s with
    | str t =>
      simp only
      cases hr : EncValue.parse C t with
      | ok v =>
        constructor
        · intro h; cases h
        · intro h
          cases h with
          | text _ _ _ h => rw [hr] at h; cases h
          | plaintext _ _ h => exact absurd rfl (h t)
      | error e' =>
        constructor
        · intro h; cases h; exact .text t e' hp hr
        · intro h
          cases h with
          | text _ _ _ h => rw [hr] at h; cases h; rfl
          | plaintext _ _ h => exact absurd rfl (h t)
    | _ =>
      constructor
      · intro h; cases h; exact .plaintext _ hp (fun t h => nomatch h)
      · intro h
        cases h <;> first | rfl | contradiction

theorem travMap_rdEncAt_error {C : Cipher} {rx : RegexMatch} {cfg : Option PartialEncryption} {d : RMap Scalar}
    {e : FormatError} : dropUnit (travMap (rdEncAt C rx cfg) [] d ()) = .error e ↔ FirstRefusal C rx cfg d e := by
  rw [dropUnit_error, travMap_error_iff, travList_error_iff, FirstRefusal]
  simp only [rdEncAt_error_iff, rdEncAt_ok_iff]
  rfl

/-- **C30.** An encrypted JSON document is refused with an error exactly if its first scalar that
does not belong at its place is refused with that error: an integer in plaintext that does not fit,
a text that is not one of an encrypted value, or anything else where a ciphertext is required. -/
theorem C30_json_enc_error (C : Cipher) (rx : RegexMatch) (cfg : Option PartialEncryption) (x : Format.json.Map)
    (e : FormatError) : Format.json.encToInternal C rx (Resolved.ofConfig cfg) x = .error e ↔
      FirstRefusal C rx cfg (jsonMap x) e := by
  rw [← travMap_rdEncAt_error, ← (Json.enc_eq_trav C rx cfg).2.2 x []]; rfl

/-- **C30.** The same for TOML. -/
theorem C30_toml_enc_error (C : Cipher) (rx : RegexMatch) (cfg : Option PartialEncryption) (x : Format.toml.Map)
    (e : FormatError) : Format.toml.encToInternal C rx (Resolved.ofConfig cfg) x = .error e ↔
      FirstRefusal C rx cfg (tomlMap x) e := by
  rw [← travMap_rdEncAt_error, ← (Toml.enc_eq_trav C rx cfg).2.2 x []]; rfl

/-- **C30.** The same for YAML documents all of whose keys are strings. -/
theorem C30_yaml_enc_error (C : Cipher) (rx : RegexMatch) (cfg : Option PartialEncryption) (x : Format.yaml.Map)
    (d : RMap Scalar) (hd : yamlMap x = some d) (e : FormatError) :
    Format.yaml.encToInternal C rx (Resolved.ofConfig cfg) x = .error e ↔ FirstRefusal C rx cfg d e := by
  have h := (Yaml.enc_eq_trav C rx cfg).2.2 x []
  rw [hd] at h
  simp only [IsRead] at h
  rw [← travMap_rdEncAt_error, ← h]; rfl

/-- **C30.** Where a ciphertext is required no number, Boolean or date is accepted, nor a text that
is not one of an encrypted value; shown for JSON. -/
theorem C30_json_plaintext_refused (C : Cipher) (rx : RegexMatch) (cfg : Option PartialEncryption) (x : Format.json.Map)
    {p : List Str} {s : Scalar} (hs : (p, s) ∈ leaves (jsonMap x)) (hp : ¬ Plain rx cfg p)
    (hn : ∀ t e, s = .str t → EncValue.parse C t ≠ .ok e) (m : RMap EncLeaf) :
    Format.json.encToInternal C rx (Resolved.ofConfig cfg) x ≠ .ok m := by
  intro h
  rw [C30_json_enc_read] at h
  obtain ⟨n, hn'⟩ := List.getElem?_of_mem hs
  obtain ⟨t, e, h1, _, h2⟩ := (h.2 n p s hn').2 hp
  exact hn t e h1 h2

/-- **C55.** Reading an encrypted JSON map panics exactly if the first scalar that is refused is an
overlong text where a ciphertext is required. -/
theorem C55_json_map_panics_iff {C : Cipher} (hC : C.Lawful) (rx : RegexMatch) (cfg : Option PartialEncryption)
    (x : Format.json.Map) : Format.json.encToInternal C rx (Resolved.ofConfig cfg) x = .error (.encryptedValue .panic) ↔
      ∃ A p t B, leaves (jsonMap x) = A ++ (p, .str t) :: B ∧ (∀ a ∈ A, EncScalar C rx cfg a.1 a.2) ∧
        ¬ Plain rx cfg p ∧ Overlong C t := by
  rw [C30_json_enc_error]
  constructor
  · rintro ⟨A, p, s, B, h1, h2, h3⟩
    cases h3 with
    | text t _ hp ht => exact ⟨A, p, t, B, h1, h2, hp, (C55_enc_text_panics_iff C hC t).1 ht⟩
  · rintro ⟨A, p, t, B, h1, h2, hp, ht⟩
    exact ⟨A, p, _, B, h1, h2, .text t _ hp ((C55_enc_text_panics_iff C hC t).2 ht)⟩

/-- **C55.** The same for TOML. -/
theorem C55_toml_map_panics_iff {C : Cipher} (hC : C.Lawful) (rx : RegexMatch) (cfg : Option PartialEncryption)
    (x : Format.toml.Map) : Format.toml.encToInternal C rx (Resolved.ofConfig cfg) x = .error (.encryptedValue .panic) ↔
      ∃ A p t B, leaves (tomlMap x) = A ++ (p, .str t) :: B ∧ (∀ a ∈ A, EncScalar C rx cfg a.1 a.2) ∧
        ¬ Plain rx cfg p ∧ Overlong C t := by
  rw [C30_toml_enc_error]
  constructor
  · rintro ⟨A, p, s, B, h1, h2, h3⟩
    cases h3 with
    | text t _ hp ht => exact ⟨A, p, t, B, h1, h2, hp, (C55_enc_text_panics_iff C hC t).1 ht⟩
  · rintro ⟨A, p, t, B, h1, h2, hp, ht⟩
    exact ⟨A, p, _, B, h1, h2, .text t _ hp ((C55_enc_text_panics_iff C hC t).2 ht)⟩

/-- **C55.** The same for YAML documents all of whose keys are strings. -/
theorem C55_yaml_map_panics_iff {C : Cipher} (hC : C.Lawful) (rx : RegexMatch) (cfg : Option PartialEncryption)
    (x : Format.yaml.Map) (d : RMap Scalar) (hd : yamlMap x = some d) :
    Format.yaml.encToInternal C rx (Resolved.ofConfig cfg) x = .error (.encryptedValue .panic) ↔
      ∃ A p t B, leaves d = A ++ (p, .str t) :: B ∧ (∀ a ∈ A, EncScalar C rx cfg a.1 a.2) ∧
        ¬ Plain rx cfg p ∧ Overlong C t := by
  rw [C30_yaml_enc_error C rx cfg x d hd]
  constructor
  · rintro ⟨A, p, s, B, h1, h2, h3⟩
    cases h3 with
    | text t _ hp ht => exact ⟨A, p, t, B, h1, h2, hp, (C55_enc_text_panics_iff C hC t).1 ht⟩
  · rintro ⟨A, p, t, B, h1, h2, hp, ht⟩
    exact ⟨A, p, _, B, h1, h2, .text t _ hp ((C55_enc_text_panics_iff C hC t).2 ht)⟩

-- a Boolean in place of a ciphertext, after one in plaintext
example : Format.json.encToInternal Toy.cipher (fun _ _ => false)
    (Resolved.ofConfig (some (.unencryptedSuffix c!"_plain")))
    [(c!"a_plain", .leaf (.bool true)), (c!"b", .leaf (.bool false))] = .error .plaintextWhenEncrypted := by
  refine (C30_json_enc_error _ _ _ _ _).2 ⟨[([c!"a_plain"], .bool true)], [c!"b"], .bool false, [], rfl, ?_, .plaintext _ ?_ fun t h => nomatch h⟩
  · intro a ha
    simp only [List.mem_singleton] at ha
    subst ha
    exact ⟨fun _ => ⟨_, rfl⟩, fun h => absurd (by decide) h⟩
  · decide

-- an overlong text
example : Format.json.encToInternal Toy.cipher (fun _ _ => false) (Resolved.ofConfig none)
    [(c!"b", .leaf (.str c!"ENC[AES256_GCM,data:AQ==,iv:AQIDBAUG,tag:AQI=,type:str]"))] = .error (.encryptedValue .panic) := by
  refine (C55_json_map_panics_iff Toy.cipher_lawful _ _ _).2
    ⟨[], [c!"b"], _, [], rfl, (fun x h => by cases h), by decide, (C55_enc_text_panics_iff _ Toy.cipher_lawful _).1 ?_⟩
  decide +kernel

end Rops.Props
