import Verif.Props.Keys
import Verif.Lemmas.FileOps
/-!
# Properties of the requests to AWS KMS
-/

namespace Rops.Props
open Spec

/-! ## C53: which requests are sent, and what they use of the key id -/

theorem find_firstOf {profile : Str} {ps : List AwsPrivateKey} {p : AwsPrivateKey} :
    ps.find? (fun p => p.profile == profile) = some p ↔ FirstOf profile ps p := by
  rw [List.find?_eq_some_iff_append]
  simp only [beq_iff_eq, Bool.not_eq_true', beq_eq_false_iff_ne, FirstOf]

theorem find_noProfile {profile : Str} {ps : List AwsPrivateKey} :
    ps.find? (fun p => p.profile == profile) = none ↔ ∀ p ∈ ps, p.profile ≠ profile := by
  simp [List.find?_eq_none]

/-- A data key is encrypted for a KMS key exactly when the private keys can be read, one
has the profile of the key id, and KMS accepts the request that the first such one signs
in the region of the key. The result is the base64 text of the answer. -/
theorem C53_encrypt_iff (K : KmsOps) (h : Host) (k : AwsKeyId) (d : Bytes) (i : Nat) (t : Str) :
    Kms.encryptDataKey K h k d i = .ok t ↔ ∃ ps p b,
      retrievePrivateKeys AwsPrivateKey.parse h c!"aws_kms" = .ok ps ∧ FirstOf k.profile ps p ∧
      K.encrypt (clientFor k p) k.arn.keyId d i = .blob b ∧ t = Base64.encode b := by
  unfold Kms.encryptDataKey Kms.findClient
  cases hr : retrievePrivateKeys AwsPrivateKey.parse h c!"aws_kms" with
  | error e => simp
  | ok ps =>
    cases hf : ps.find? (fun p => p.profile == k.profile) with
    | none =>
      simp only [hf, reduceCtorEq, false_iff]
      rintro ⟨_, p, _, ⟨rfl⟩, hp, _⟩
      rw [find_firstOf.2 hp] at hf
      cases hf
    | some p =>
      simp only [hf]
      cases hk : K.encrypt ⟨k.arn.region, p.id, p.secret⟩ k.arn.keyId d i with
      | error | empty =>
        simp only [reduceCtorEq, false_iff]
        rintro ⟨_, p', _, ⟨rfl⟩, hp, hb, _⟩
        rw [find_firstOf.2 hp] at hf
        cases hf
        rw [clientFor, hk] at hb
        cases hb
      | blob b =>
        constructor
        · intro h
          cases h
          exact ⟨ps, p, b, rfl, find_firstOf.1 hf, hk, rfl⟩
        · rintro ⟨_, p', b', ⟨rfl⟩, hp, hb, rfl⟩
          rw [find_firstOf.2 hp] at hf
          cases hf
          rw [clientFor, hk] at hb
          cases hb
          rfl

/-- A KMS unit gives a data key exactly when its text is base64, the private keys can be
read, one has the profile of the key id, and KMS answers the request that the first such
one signs in the region of the key with 32 bytes. -/
theorem C53_decrypt_iff (K : KmsOps) (h : Host) (k : AwsKeyId) (t : Str) (d : Bytes) :
    Kms.decryptDataKey K h k t = .ok (some d) ↔ ∃ b ps p, Base64.decode t = some b ∧
      retrievePrivateKeys AwsPrivateKey.parse h c!"aws_kms" = .ok ps ∧ FirstOf k.profile ps p ∧
      K.decrypt (clientFor k p) k.arn.keyId b = .blob d ∧ d.length = 32 := by
  unfold Kms.decryptDataKey Kms.findClient
  cases hb : Base64.decode t with
  | none => simp
  | some b =>
    cases hr : retrievePrivateKeys AwsPrivateKey.parse h c!"aws_kms" with
    | error e => simp
    | ok ps =>
      cases hf : ps.find? (fun p => p.profile == k.profile) with
      | none =>
        simp only [hf, Except.ok.injEq, reduceCtorEq, false_iff]
        rintro ⟨_, _, p, _, rfl, hp, _⟩
        rw [find_firstOf.2 hp] at hf
        cases hf
      | some p =>
        simp only [hf]
        constructor
        · intro h
          cases hk : K.decrypt ⟨k.arn.region, p.id, p.secret⟩ k.arn.keyId b with
          | error | empty => rw [hk] at h; cases h
          | blob x =>
            rw [hk] at h
            simp only at h
            split at h
            · rename_i hl
              cases h
              exact ⟨b, ps, p, rfl, rfl, find_firstOf.1 hf, hk, hl⟩
            · cases h
        · rintro ⟨_, _, p', ⟨rfl⟩, ⟨rfl⟩, hp, hk, hl⟩
          rw [find_firstOf.2 hp] at hf
          cases hf
          rw [clientFor] at hk
          rw [hk]
          simp only
          exact if_pos hl

/-- When the private key at hand is refused, the unit is an error and is not skipped, and
the error is labelled as one of encryption. -/
theorem C53_refused {K : KmsOps} {h : Host} {k : AwsKeyId} {t : Str} {b : Bytes} {ps : List AwsPrivateKey}
    {p : AwsPrivateKey} (hb : Base64.decode t = some b)
    (hr : retrievePrivateKeys AwsPrivateKey.parse h c!"aws_kms" = .ok ps) (hp : FirstOf k.profile ps p)
    (hk : K.decrypt (clientFor k p) k.arn.keyId b = .error) : Kms.decryptDataKey K h k t = .error .encryption := by
  rw [clientFor] at hk
  simp only [Kms.decryptDataKey, Kms.findClient, hb, hr, find_firstOf.2 hp, hk]

/-- An answer without content ends the program, both when a data key is decrypted and when it
is encrypted. -/
theorem C53_empty_answer {K : KmsOps} {h : Host} {k : AwsKeyId} {ps : List AwsPrivateKey} {p : AwsPrivateKey}
    (hr : retrievePrivateKeys AwsPrivateKey.parse h c!"aws_kms" = .ok ps) (hp : FirstOf k.profile ps p) :
    (∀ t b, Base64.decode t = some b → K.decrypt (clientFor k p) k.arn.keyId b = .empty →
      Kms.decryptDataKey K h k t = .error .panic) ∧
    ∀ d i, K.encrypt (clientFor k p) k.arn.keyId d i = .empty → Kms.encryptDataKey K h k d i = .error .panic := by
  refine ⟨fun t b hb hk => ?_, fun d i hk => ?_⟩ <;> rw [clientFor] at hk <;>
    simp only [Kms.decryptDataKey, Kms.encryptDataKey, Kms.findClient, *, find_firstOf.2 hp]

/-- Such a service. -/
example : Kms.encryptDataKey { encrypt := fun _ _ _ _ => .empty, decrypt := fun _ _ _ => .empty }
    { var := fun v => if v = c!"ROPS_AWS_KMS" then .value c!"work.A.b" else .notPresent, varPath := fun _ => some c!"none",
      configDir := none, file := fun _ => .missing }
    ⟨c!"work", ⟨some c!"aws", c!"kms", c!"eu-1", some c!"123", some c!"key", c!"ab-c"⟩⟩ [] 0 = .error .panic :=
  (C53_empty_answer (ps := [⟨c!"work", c!"A", c!"b"⟩]) (p := ⟨c!"work", c!"A", c!"b"⟩) (by decide +kernel) (find_firstOf.1 (by decide +kernel))).2 _ _ rfl

/-- Of two private keys with the same profile the second one is never used. -/
theorem C53_later_keys_unused {K : KmsOps} {h h' : Host} {k : AwsKeyId} {ps : List AwsPrivateKey} {p : AwsPrivateKey}
    {rest rest' : List AwsPrivateKey} (hp : p.profile = k.profile)
    (hr : retrievePrivateKeys AwsPrivateKey.parse h c!"aws_kms" = .ok (ps ++ p :: rest))
    (hr' : retrievePrivateKeys AwsPrivateKey.parse h' c!"aws_kms" = .ok (ps ++ p :: rest')) :
    (∀ t, Kms.decryptDataKey K h k t = Kms.decryptDataKey K h' k t) ∧
    ∀ d i, Kms.encryptDataKey K h k d i = Kms.encryptDataKey K h' k d i := by
  have hf : Kms.findClient h k = Kms.findClient h' k := by
    simp only [Kms.findClient, hr, hr', List.find?_append, List.find?_cons, hp, beq_self_eq_true]
  simp only [Kms.decryptDataKey, Kms.encryptDataKey, hf, implies_true, and_self]

/-- Only the profile, the region and the last part of the resource of a key id matter: the
partition, the service, the account and the path before the last '/' (as the "alias" of
"alias/name") are not part of any request. -/
theorem C53_arn_parts_ignored (K : KmsOps) (h : Host) {k k' : AwsKeyId} (hp : k.profile = k'.profile)
    (hr : k.arn.region = k'.arn.region) (hi : k.arn.keyId = k'.arn.keyId) :
    (∀ d i, Kms.encryptDataKey K h k d i = Kms.encryptDataKey K h k' d i) ∧
    ∀ t, Kms.decryptDataKey K h k t = Kms.decryptDataKey K h k' t := by
  simp only [Kms.decryptDataKey, Kms.encryptDataKey, Kms.findClient, hp, hr, hi, implies_true, and_self]

/-- So texts that name a key and an alias of an other account are different recipients with the
same requests. -/
example : ∃ k k', AwsKeyId.parse Toy.arns c!"work.arn:aws:kms:eu-1:123:key/ab-c" = .ok k ∧
    AwsKeyId.parse Toy.arns c!"work.arn:aws-cn:kms:eu-1:456:alias/ab-c" = .ok k' ∧ k ≠ k' ∧
    k.profile = k'.profile ∧ k.arn.region = k'.arn.region ∧ k.arn.keyId = k'.arn.keyId :=
  ⟨⟨c!"work", some c!"aws", c!"kms", c!"eu-1", some c!"123", some c!"key", c!"ab-c"⟩,
    ⟨c!"work", some c!"aws-cn", c!"kms", c!"eu-1", some c!"456", some c!"alias", c!"ab-c"⟩, by decide +kernel⟩

/-- A process that has a private key for the profile of one recipient gets the data key, if
KMS refuses none of the requests that its private keys sign for the recipients. -/
theorem C53_recipient {env : KeyEnv} (hA : AgeLaws env.A) (hK : KmsLaws env.K) {im : IntegrationMetadata} {key : Bytes}
    (hkey : key.length = 32) (hw : AllWrap env.A env.K im key) {ks : List env.A.Identity} {ps : List AwsPrivateKey}
    (hka : retrievePrivateKeys (Age.parsePrivateKey env.A) env.host c!"age" = .ok ks)
    (hkk : retrievePrivateKeys AwsPrivateKey.parse env.host c!"aws_kms" = .ok ps)
    (hacc : ∀ u ∈ im.kms, ∀ p, FirstOf u.keyId.profile ps p → ∀ b, Base64.decode u.enc = some b →
      env.K.decrypt (clientFor u.keyId p) u.keyId.arn.keyId b ≠ .error ∧
        env.K.decrypt (clientFor u.keyId p) u.keyId.arn.keyId b ≠ .empty)
    (hone : (∃ u ∈ im.kms, ∃ p ∈ ps, p.profile = u.keyId.profile) ∨
      ∃ u ∈ im.age, ∃ k ∈ ks, env.A.toPublic k = u.keyId) :
    env.decryptAny im = .ok (some key) := by
  have hage : ∀ u ∈ im.age, env.decryptDataKey .age u.keyId u.enc = .ok (some key) ∨
      env.decryptDataKey .age u.keyId u.enc = .ok none := by
    intro u hu
    simp only [KeyEnv.decryptDataKey, Age.decryptDataKey, hka]
    cases hf : ks.find? (fun k => env.A.toPublic k == u.keyId) with
    | none => exact .inr rfl
    | some k' =>
      have h1 := List.find?_some hf
      simp only [beq_iff_eq] at h1
      obtain ⟨i, hi⟩ := hw .age u hu
      simp only [hA.unwrap_wrap h1 hi]
      rw [if_pos (by rw [hkey]; exact Nat.le_refl _)]
      left
      have : key.take dataKeySize = key := by rw [dataKeySize, ← hkey, List.take_length]
      rw [this]
  have hkms : ∀ u ∈ im.kms, env.decryptDataKey .kms u.keyId u.enc = .ok (some key) ∨
      env.decryptDataKey .kms u.keyId u.enc = .ok none := by
    intro u hu
    obtain ⟨c, i, b, hb, he⟩ := hw .kms u hu
    have hdec : Base64.decode u.enc = some b := by rw [he, Base64.decode_encode]
    cases hf : ps.find? (fun p => p.profile == u.keyId.profile) with
    | none => exact .inr ((C26_kms_skipped env hkk u).2 ⟨by simp [hdec], find_noProfile.1 hf⟩)
    | some p =>
      left
      have hp := find_firstOf.1 hf
      obtain ⟨d, hd⟩ : ∃ d, env.K.decrypt (clientFor u.keyId p) u.keyId.arn.keyId b = .blob d := by
        have := hacc u hu p hp b hdec
        cases h : env.K.decrypt (clientFor u.keyId p) u.keyId.arn.keyId b <;> simp_all
      have := hK.decrypt_encrypt hb hd
      subst this
      exact (C53_decrypt_iff env.K env.host u.keyId u.enc d).2 ⟨b, ps, p, hdec, hkk, hp, hd, hkey⟩
  have hall : ∀ r ∈ tries env im, r = .ok (some key) ∨ r = .ok none := by
    intro r hr
    simp only [tries, List.mem_append, List.mem_map] at hr
    rcases hr with ⟨u, hu, rfl⟩ | ⟨u, hu, rfl⟩
    · exact hage u hu
    · exact hkms u hu
  have hsome : .ok (some key) ∈ tries env im := by
    simp only [tries, List.mem_append, List.mem_map]
    rcases hone with ⟨u, hu, p, hp, hpp⟩ | ⟨u, hu, k, hk, hkp⟩
    · right
      refine ⟨u, hu, (hkms u hu).resolve_right fun hn => ?_⟩
      exact ((C26_kms_skipped env hkk u).1 hn).2 p hp hpp
    · left
      refine ⟨u, hu, (hage u hu).resolve_right fun hn => ?_⟩
      exact (C26_age_skipped env hka u).1 hn k hk hkp
  rw [C26_first_not_skipped]
  generalize tries env im = l at hall hsome
  induction l with
  | nil => cases hsome
  | cons r l ih =>
    rcases hall r (by simp) with rfl | rfl
    · exact ⟨0, rfl, fun j hj => absurd hj (Nat.not_lt_zero j)⟩
    · obtain ⟨n, hn, hj⟩ := ih (fun x hx => hall x (by simp [hx])) (by simpa using hsome)
      refine ⟨n + 1, hn, fun j hlt => ?_⟩
      cases j with
      | zero => rfl
      | succ j => exact hj j (by omega)

/-- A KMS key. -/
def workKey : AwsKeyId := ⟨c!"work", some c!"aws", c!"kms", c!"eu-1", some c!"123", some c!"key", c!"ab-c"⟩

/-- The owner of the profile "work", who also has an age identity that is no recipient. -/
def workEnv : KeyEnv := { sampleKeyEnv with host := Toy.host (.value c!"k9") (.value c!"home.A.b,work.C.d,work.E.f") }

/-- Units for an age identity and a KMS key. -/
def workUnits : IntegrationMetadata where
  kms := [⟨workKey, none, Base64.encode (utf8 c!"ab-c" ++ sampleKey)⟩]
  age := [⟨c!"pk1", none, c!"pk1," ++ Base64.encode sampleKey⟩]

/-- The owner gets the data key of a file that has no recipient among their age identities,
with the first private key of the profile. -/
example : workEnv.decryptAny workUnits = .ok (some sampleKey) ∧
    FirstOf c!"work" [⟨c!"home", c!"A", c!"b"⟩, ⟨c!"work", c!"C", c!"d"⟩, ⟨c!"work", c!"E", c!"f"⟩]
      ⟨c!"work", c!"C", c!"d"⟩ := by
  have hka : retrievePrivateKeys (κ := Str) (Age.parsePrivateKey Toy.age) workEnv.host c!"age" = .ok [c!"k9"] := by
    decide +kernel
  have hkk : retrievePrivateKeys AwsPrivateKey.parse workEnv.host c!"aws_kms" =
    .ok [⟨c!"home", c!"A", c!"b"⟩, ⟨c!"work", c!"C", c!"d"⟩, ⟨c!"work", c!"E", c!"f"⟩] := by decide +kernel
  refine ⟨C53_recipient Toy.age_laws Toy.kms_laws rfl ?_ hka hkk ?_ (.inl ?_),
    find_firstOf.1 (by decide +kernel)⟩
  · intro k u hu
    cases k with
    | age =>
      simp only [workUnits, IntegrationMetadata.units, List.mem_cons, List.not_mem_nil, or_false] at hu
      subst hu
      exact ⟨0, rfl⟩
    | kms =>
      simp only [workUnits, IntegrationMetadata.units, List.mem_cons, List.not_mem_nil, or_false] at hu
      subst hu
      exact ⟨⟨[], [], []⟩, 0, utf8 c!"ab-c" ++ sampleKey, rfl, rfl⟩
  · intro u hu p _ b hb
    simp only [workUnits, List.mem_cons, List.not_mem_nil, or_false] at hu
    subst hu
    rw [Base64.decode_encode] at hb
    cases hb
    have : Toy.kms.decrypt (clientFor workKey p) c!"ab-c" (utf8 c!"ab-c" ++ sampleKey) = .blob sampleKey :=
      (by decide +kernel : (if (utf8 c!"ab-c").isPrefixOf (utf8 c!"ab-c" ++ sampleKey) then
        KmsAnswer.blob ((utf8 c!"ab-c" ++ sampleKey).drop (utf8 c!"ab-c").length) else .error) = .blob sampleKey)
    exact ⟨fun h => (nomatch this.symm.trans h), fun h => nomatch this.symm.trans h⟩
  · exact ⟨_, List.mem_cons_self, ⟨c!"work", c!"C", c!"d"⟩, by simp, rfl⟩

end Rops.Props
