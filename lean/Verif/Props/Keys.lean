import Verif.Lemmas.Keys
import Verif.Spec.ToyKeys
/-!
# Properties of key ids, private keys and integration units
-/

namespace Rops.Props
open Spec

/-! ## C40: AWS key ids -/

/-- What a parsed ARN text looks like. -/
theorem arn_text {A : ArnChecks} {s : Str} {a : KeyArn} (h : KeyArn.parse A s = .ok a) :
    s = c!"arn:" ++ a.partition.getD [] ++ ':' :: a.service ++ ':' :: a.region ++ ':' :: a.account.getD [] ++
      ':' :: a.resourceText := by
  obtain ⟨p, ac, r0, rest, h1, h2, _, _, h5, h6⟩ := KeyArn.parse_ok h
  have hs := joinWith_splitOn ':' s
  rw [h1] at hs
  have hp : p = a.partition.getD [] := by
    cases hpp : a.partition with
    | none => rw [hpp] at h2; exact ArnChecks.optional_none h2
    | some t => rw [hpp] at h2; exact (ArnChecks.optional_some h2).1
  have hac : ac = a.account.getD [] := by
    cases hpp : a.account with
    | none => rw [hpp] at h5; exact ArnChecks.optional_none h5
    | some t => rw [hpp] at h5; exact (ArnChecks.optional_some h5).1
  rw [joinColon_eq] at h6
  simp only [joinWith] at hs
  rw [← hs, ← hp, ← hac, ← h6]
  simp

/-- A key ARN with partition and account id is displayed as the text it was read from, so
it is read back as itself. -/
theorem C40_arn_round_trip {A : ArnChecks} {s : Str} {a : KeyArn} (h : KeyArn.parse A s = .ok a)
    (hp : a.partition ≠ none) (ha : a.account ≠ none) : a.toText = s ∧ KeyArn.parse A a.toText = .ok a := by
  have : a.toText = s := by
    rw [arn_text h]
    obtain ⟨p, hp⟩ := Option.ne_none_iff_exists'.1 hp
    obtain ⟨ac, ha⟩ := Option.ne_none_iff_exists'.1 ha
    simp only [KeyArn.toText_eq, hp, ha, Option.getD_some, pushOptional, pushIdent]
    simp
  exact ⟨this, this ▸ h⟩

/-- The same for AWS key ids. -/
theorem C40_key_id_round_trip {A : ArnChecks} {s : Str} {k : AwsKeyId} (h : AwsKeyId.parse A s = .ok k)
    (hp : k.arn.partition ≠ none) (ha : k.arn.account ≠ none) :
    k.toText = s ∧ AwsKeyId.parse A k.toText = .ok k := by
  have : k.toText = s := by
    unfold AwsKeyId.parse at h
    split at h
    · cases h
    · rename_i profile rest hs
      split at h
      · rename_i arn harn
        cases h
        rw [(splitOnce_eq_some.1 hs).1, AwsKeyId.toText, (C40_arn_round_trip harn hp ha).1]
      · cases h
  exact ⟨this, this ▸ h⟩

/-- A key ARN without partition or account id is displayed as a text that is not read back
as itself. -/
theorem C40_arn_missing_part {A : ArnChecks} {s : Str} {a : KeyArn} (_ : KeyArn.parse A s = .ok a)
    (hm : a.partition = none ∨ a.account = none) : KeyArn.parse A a.toText ≠ .ok a := by
  intro h
  have ht := arn_text h
  have := congrArg List.length ht
  have he : ∀ o : Option Str, (pushOptional o).length = match o with | none => 0 | some x => x.length + 1 := by
    intro o; cases o <;> simp [pushOptional, pushIdent]
  simp only [KeyArn.toText_eq, List.length_append, List.length_cons, List.length_nil, he,
    pushIdent] at this
  rcases hm with hm | hm <;> rw [hm] at this
  · cases ha : a.account with
    | none => rw [ha] at this; simp only [Option.getD_none, List.length_nil] at this; omega
    | some x => rw [ha] at this; simp only [Option.getD_none, Option.getD_some, List.length_nil] at this; omega
  · cases ha : a.partition with
    | none => rw [ha] at this; simp only [Option.getD_none, List.length_nil] at this; omega
    | some x => rw [ha] at this; simp only [Option.getD_none, Option.getD_some, List.length_nil] at this; omega

/-- The same for AWS key ids. -/
theorem C40_key_id_missing_part {A : ArnChecks} {s : Str} {k : AwsKeyId} (h : AwsKeyId.parse A s = .ok k)
    (hm : k.arn.partition = none ∨ k.arn.account = none) : AwsKeyId.parse A k.toText ≠ .ok k := by
  unfold AwsKeyId.parse at h
  split at h
  · cases h
  · rename_i profile rest hs
    split at h
    · rename_i arn harn
      cases h
      intro h'
      unfold AwsKeyId.parse at h'
      rw [AwsKeyId.toText, splitOnce_append _ (splitOnce_eq_some.1 hs).2] at h'
      simp only at h'
      split at h'
      · rename_i arn' harn'
        cases h'
        exact C40_arn_missing_part harn hm harn'
      · cases h'
    · cases h

theorem finish_ok {A : ArnChecks} {p sv rg ac res : Str} {a : KeyArn} :
    KeyArn.finish A p sv rg ac res = .ok a ↔ a.partition = nonEmpty p ∧ a.service = sv ∧ a.region = rg ∧ rg ≠ [] ∧
      a.account = nonEmpty ac ∧ ResourceParts res a.parentPath a.keyId ∧
      (∀ q, a.parentPath = some q → A.resource q = true) ∧ A.ident a.keyId = true := by
  have hso : ∀ x y, nonEmpty x = some y ↔ x = y ∧ y ≠ [] := fun x y => by
    unfold nonEmpty
    split
    · rename_i h
      subst h
      constructor
      · intro h; cases h
      · rintro ⟨rfl, h⟩; exact absurd rfl h
    · rename_i h
      constructor
      · intro h'; cases h'; exact ⟨rfl, h⟩
      · rintro ⟨rfl, _⟩; rfl
  obtain ⟨ap, asv, arg, aac, app, ak⟩ := a
  unfold KeyArn.finish ResourceParts
  cases hr : rsplitOnce '/' res with
  | none =>
    have hn := rsplitOnce_eq_none.1 hr
    constructor
    · intro h
      simp only at h
      split at h
      · rename_i hi
        split at h
        · rename_i r hrg
          cases h
          obtain ⟨rfl, hr0⟩ := (hso _ _).1 hrg
          exact ⟨rfl, rfl, rfl, hr0, rfl, ⟨hn, rfl⟩, fun q h => (nomatch h), hi⟩
        · cases h
      · cases h
    · rintro ⟨rfl, rfl, rfl, hr0, rfl, ⟨h1, h2⟩, _, h3⟩
      cases app with
      | some q =>
        simp only at h2
        exact absurd (by rw [h2]; simp) hn
      | none =>
        simp only at h2 h3 ⊢
        subst h2
        rw [if_pos h3, (hso _ _).2 ⟨rfl, hr0⟩]
  | some pr =>
    obtain ⟨parent, id⟩ := pr
    obtain ⟨e1, e2⟩ := rsplitOnce_eq_some.1 hr
    constructor
    · intro h
      simp only at h
      split at h
      · rename_i hi
        split at h
        · rename_i r hrg
          cases h
          obtain ⟨rfl, hr0⟩ := (hso _ _).1 hrg
          exact ⟨rfl, rfl, rfl, hr0, rfl, ⟨e2, e1⟩, fun q h => by cases h; exact hi.1, hi.2⟩
        · cases h
      · cases h
    · rintro ⟨rfl, rfl, rfl, hr0, rfl, ⟨h1, h2⟩, h4, h3⟩
      cases app with
      | none =>
        simp only at h1 h2
        exact absurd (by rw [← h2, e1]; simp) h1
      | some q =>
        simp only at h1 h2 h3 ⊢
        have := (rsplitOnce_append q h1).symm.trans (h2 ▸ hr)
        cases this
        rw [if_pos ⟨h4 _ rfl, h3⟩, (hso _ _).2 ⟨rfl, hr0⟩]

/-- The accepted ARNs, exactly: five parts before the resource, of which partition and
account may be empty, and a resource whose part after the last '/' is an identifier. -/
theorem C40_arn_accepted_iff {A : ArnChecks} (hA : A.Lawful) (s : Str) (a : KeyArn) :
    KeyArn.parse A s = .ok a ↔ ∃ p ac res, ArnParts A s p a.service a.region ac res ∧ a.region ≠ [] ∧
      a.partition = nonEmpty p ∧ a.account = nonEmpty ac ∧ ResourceParts res a.parentPath a.keyId ∧
      (∀ q, a.parentPath = some q → A.resource q = true) ∧ A.ident a.keyId = true := by
  constructor
  · intro h
    obtain ⟨p, sv, rg, ac, res, hp⟩ := KeyArn.arnParts_of_parse (by rw [h]; simp)
    rw [KeyArn.parse_arnParts hA hp, finish_ok] at h
    obtain ⟨h1, h2, h3, h4, h5, h6, h7, h8⟩ := h
    exact ⟨p, ac, res, by rw [h2, h3]; exact hp, by rw [h3]; exact h4, h1, h5, h6, h7, h8⟩
  · rintro ⟨p, ac, res, hp, h4, h1, h5, h6, h7, h8⟩
    rw [KeyArn.parse_arnParts hA hp, finish_ok]
    exact ⟨h1, rfl, rfl, h4, h5, h6, h7, h8⟩

/-- The accepted AWS key ids, exactly: the profile ends at the first '.'. -/
theorem C40_key_id_accepted_iff (A : ArnChecks) (s : Str) (k : AwsKeyId) :
    AwsKeyId.parse A s = .ok k ↔ '.' ∉ k.profile ∧ ∃ t, s = k.profile ++ c!"." ++ t ∧ KeyArn.parse A t = .ok k.arn := by
  unfold AwsKeyId.parse
  constructor
  · intro h
    split at h
    · cases h
    · rename_i profile rest hs
      split at h
      · rename_i arn harn
        cases h
        obtain ⟨h1, h2⟩ := splitOnce_eq_some.1 hs
        exact ⟨h2, rest, by simp [h1], harn⟩
      · cases h
  · rintro ⟨h1, t, rfl, ht⟩
    have : k.profile ++ c!"." ++ t = k.profile ++ '.' :: t := by simp
    rw [this, splitOnce_append _ h1]
    simp only [ht]

example : KeyArn.parse Toy.arns c!"arn:aws:kms:eu-1:123:key/ab-c" =
    .ok ⟨some c!"aws", c!"kms", c!"eu-1", some c!"123", some c!"key", c!"ab-c"⟩ := by decide +kernel

example : AwsKeyId.parse Toy.arns c!"work.arn:aws:kms:eu-1:123:key/ab-c" =
    .ok ⟨c!"work", some c!"aws", c!"kms", c!"eu-1", some c!"123", some c!"key", c!"ab-c"⟩ := by decide +kernel

example : KeyArn.parse Toy.arns c!"arn::kms:eu-1:123:key/ab-c" =
      .ok ⟨none, c!"kms", c!"eu-1", some c!"123", some c!"key", c!"ab-c"⟩ ∧
    KeyArn.parse Toy.arns c!"arn:kms:eu-1:123:key/ab-c" = .error .keyIdParsing := by decide +kernel

/-- With ':' in the resource the displayed text of an ARN without account id is read as a
different ARN. -/
example : KeyArn.parse Toy.arns c!"arn:aws:kms:eu-1::key:a/b" =
      .ok ⟨some c!"aws", c!"kms", c!"eu-1", none, some c!"key:a", c!"b"⟩ ∧
    KeyArn.parse Toy.arns (KeyArn.toText ⟨some c!"aws", c!"kms", c!"eu-1", none, some c!"key:a", c!"b"⟩) =
      .ok ⟨some c!"aws", c!"kms", c!"eu-1", some c!"key", some c!"a", c!"b"⟩ := by decide +kernel

/-! ## C46: AWS private keys -/

/-- Three parts without '.' are read as they are, also with more parts after them. -/
theorem C46_three_parts {p i s : Str} (hp : '.' ∉ p) (hi : '.' ∉ i) (hs : '.' ∉ s) (rest : Str)
    (hr : rest = [] ∨ ∃ r, rest = '.' :: r) :
    AwsPrivateKey.parse (p ++ '.' :: i ++ '.' :: s ++ rest) = .ok ⟨p, i, s⟩ := by
  unfold AwsPrivateKey.parse
  have e : p ++ '.' :: i ++ '.' :: s ++ rest = p ++ '.' :: (i ++ '.' :: (s ++ rest)) := by simp
  rw [e, splitOn_append _ hp, splitOn_append _ hi]
  rcases hr with rfl | ⟨r, rfl⟩
  · rw [List.append_nil, splitOn_of_not_mem hs]
  · rw [splitOn_append _ hs]

/-- A key without '.' inside its parts is displayed as a text that is read back as it. -/
theorem C46_round_trip {k : AwsPrivateKey} (hp : '.' ∉ k.profile) (hi : '.' ∉ k.id) (hs : '.' ∉ k.secret) :
    AwsPrivateKey.parse k.toText = .ok k := by
  have := C46_three_parts hp hi hs [] (.inl rfl)
  rw [List.append_nil] at this
  exact this

/-- Exactly the texts with fewer than two '.' are rejected. -/
theorem C46_rejected_iff (s : Str) :
    (∀ k, AwsPrivateKey.parse s ≠ .ok k) ↔ s.count '.' < 2 := by
  have hlen : ∀ s : Str, (splitOn '.' s).length = s.count '.' + 1 := by
    intro s
    induction s with
    | nil => rfl
    | cons x r ih =>
      unfold splitOn
      by_cases hx : x = '.'
      · subst hx
        rw [if_pos rfl, List.length_cons, ih, List.count_cons_self]
      · rw [if_neg hx, List.count_cons_of_ne hx]
        cases hr : splitOn '.' r with
        | nil => exact absurd hr (splitOn_ne_nil _ _)
        | cons w ws => rw [hr] at ih; simpa using ih
  have hl := hlen s
  constructor
  · intro h
    unfold AwsPrivateKey.parse at h
    rcases hw : splitOn '.' s with _ | ⟨a, _ | ⟨b, _ | ⟨c, r⟩⟩⟩ <;> rw [hw] at hl
    · simp at hl
    · simp at hl; omega
    · simp at hl; omega
    · rw [hw] at h; exact absurd rfl (h _)
  · intro h k
    unfold AwsPrivateKey.parse
    rcases hw : splitOn '.' s with _ | ⟨a, _ | ⟨b, _ | ⟨c, r⟩⟩⟩ <;> rw [hw] at hl
    · simp
    · simp
    · simp
    · simp at hl; omega

example : AwsPrivateKey.parse c!"work.AKIA.s3cr3t.extra" = .ok ⟨c!"work", c!"AKIA", c!"s3cr3t"⟩ := by decide +kernel
example : AwsPrivateKey.parse c!"work.AKIA" =
    .error (.privateKeyParsing (some (c!"aws_secret_access_key", c!"work.AKIA"))) := by decide +kernel

/-! ## C41: private key retrieval -/

/-- The private keys are those of the variable followed by those of the file, each text
read as one key; there is no result if a source cannot be read or some text is no key. -/
theorem C41_private_keys {κ : Type} (parse : Str → Except IntegrationError κ) (h : Host) (name : Str) (ks : List κ) :
    retrievePrivateKeys parse h name = .ok ks ↔
      ∃ a b, varTexts h name = some a ∧ fileTexts h name = some b ∧ (a ++ b).map parse = ks.map .ok := by
  have henv : ∀ ks, privateKeysFromEnv parse h name = .ok ks ↔
      ∃ a, varTexts h name = some a ∧ a.map parse = ks.map .ok := by
    intro ks
    unfold privateKeysFromEnv varTexts
    rw [show keyVarName name = keyVariable name from rfl]
    cases h.var (keyVariable name) with
    | notPresent => simp [eq_comm]
    | notUnicode b => simp
    | value s => simp [mapResult_ok_iff]
  have hfile : ∀ ks, privateKeysFromFile parse h name = .ok ks ↔
      ∃ a, fileTexts h name = some a ∧ a.map parse = ks.map .ok := by
    intro ks
    unfold privateKeysFromFile fileTexts keyFilePath
    have hread : ∀ path, (match h.file path with
        | .missing => (.ok [] : Except IntegrationError (List κ))
        | .unreadable => .error .io
        | .text s => mapResult parse (((lines s).map trim).filter (· ≠ []))) = .ok ks ↔
        ∃ a, (match h.file path with
          | .missing => some []
          | .unreadable => none
          | .text s => some (((splitOn '\n' s).map trim).filter (· ≠ []))) = some a ∧ a.map parse = ks.map .ok := by
      intro path
      cases h.file path with
      | missing => simp [eq_comm]
      | unreadable => simp
      | text s => simp only [lines_trim, mapResult_ok_iff, Option.some.injEq, exists_eq_left']
    rw [show keyFileVarName name = keyFileVariable name from rfl]
    cases h.varPath (keyFileVariable name) with
    | some p => exact hread p
    | none =>
      cases h.configDir with
      | none => simp
      | some d => exact hread _
  unfold retrievePrivateKeys
  cases he : privateKeysFromEnv parse h name with
  | error e =>
    simp only [reduceCtorEq, false_iff]
    rintro ⟨a, b, ha, hb, hm⟩
    obtain ⟨k1, k2, rfl, h1, h2⟩ : ∃ k1 k2, ks = k1 ++ k2 ∧ a.map parse = k1.map .ok ∧ b.map parse = k2.map .ok := by
      rw [List.map_append] at hm
      obtain ⟨k1, k2, e, h1, h2⟩ := List.map_eq_append_iff.1 hm.symm
      exact ⟨k1, k2, e, h1.symm, h2.symm⟩
    rw [(henv k1).2 ⟨a, ha, h1⟩] at he
    cases he
  | ok k1 =>
    obtain ⟨a, ha, h1⟩ := (henv k1).1 he
    cases hf : privateKeysFromFile parse h name with
    | error e =>
      simp only [reduceCtorEq, false_iff]
      rintro ⟨a', b, ha', hb, hm⟩
      rw [List.map_append] at hm
      obtain ⟨l1, l2, e, h1, h2⟩ := List.map_eq_append_iff.1 hm.symm
      rw [(hfile l2).2 ⟨b, hb, h2.symm⟩] at hf
      cases hf
    | ok k2 =>
      obtain ⟨b, hb, h2⟩ := (hfile k2).1 hf
      simp only [Except.ok.injEq]
      constructor
      · rintro rfl
        exact ⟨a, b, ha, hb, by rw [List.map_append, List.map_append, h1, h2]⟩
      · rintro ⟨a', b', ha', hb', hm⟩
        rw [ha] at ha'; cases ha'
        rw [hb] at hb'; cases hb'
        rw [List.map_append, h1, h2, ← List.map_append] at hm
        exact (List.map_inj_right (by intro x y h; cases h; rfl)).1 hm

/-- A text that is no key makes the retrieval fail. -/
theorem C41_bad_key {κ : Type} (parse : Str → Except IntegrationError κ) (h : Host) (name : Str) {a b : List Str}
    (ha : varTexts h name = some a) (hb : fileTexts h name = some b) {t : Str} (ht : t ∈ a ++ b) {e : IntegrationError}
    (he : parse t = .error e) : ∃ e', retrievePrivateKeys parse h name = .error e' := by
  cases hr : retrievePrivateKeys parse h name with
  | error e' => exact ⟨e', rfl⟩
  | ok ks =>
    obtain ⟨a', b', ha', hb', hm⟩ := (C41_private_keys parse h name ks).1 hr
    rw [ha] at ha'; cases ha'
    rw [hb] at hb'; cases hb'
    have : parse t ∈ ks.map .ok := hm ▸ List.mem_map_of_mem ht
    rw [he] at this
    simp at this

/-- An empty variable holds one text, the empty one, which is neither an age identity nor
an AWS private key. -/
theorem C41_empty_variable {κ : Type} (parse : Str → Except IntegrationError κ) (h : Host) (name : Str)
    (hv : h.var (keyVariable name) = .value []) {e : IntegrationError} (he : parse [] = .error e) :
    retrievePrivateKeys parse h name = .error e := by
  have hv : h.var (keyVarName name) = .value [] := hv
  simp [retrievePrivateKeys, privateKeysFromEnv, hv, splitOn, mapResult, he]

/-- Trimming removes the white space at both ends and nothing else. -/
theorem C41_trim (s t : Str) : trim s = t ↔
    (∃ pre post, s = pre ++ t ++ post ∧ (∀ c ∈ pre, isWhitespace c = true) ∧ (∀ c ∈ post, isWhitespace c = true) ∧
      (t = [] → post = [])) ∧ (∀ c, t.head? = some c → isWhitespace c = false) ∧
      (∀ c, t.getLast? = some c → isWhitespace c = false) := by
  have hsplit : ∀ l : Str, ∃ pre, l = pre ++ l.dropWhile isWhitespace ∧ ∀ c ∈ pre, isWhitespace c = true := by
    intro l
    refine ⟨l.takeWhile isWhitespace, (List.takeWhile_append_dropWhile).symm, fun c hc => ?_⟩
    exact (List.all_eq_true.1 (List.all_takeWhile)) c hc
  have hhead : ∀ (l : Str) c, (l.dropWhile isWhitespace).head? = some c → isWhitespace c = false := by
    intro l c hc
    have := List.head?_dropWhile_not isWhitespace l
    rw [hc] at this
    simpa using this
  constructor
  · rintro rfl
    obtain ⟨pre, h1, h2⟩ := hsplit s
    obtain ⟨post, h3, h4⟩ := hsplit (s.dropWhile isWhitespace).reverse
    have h5 : s.dropWhile isWhitespace = trim s ++ post.reverse := by
      have := congrArg List.reverse h3
      rw [List.reverse_reverse, List.reverse_append] at this
      exact this
    have hlast : ∀ c, (trim s).getLast? = some c → isWhitespace c = false := by
      intro c hc
      unfold trim at hc
      rw [List.getLast?_reverse] at hc
      exact hhead _ c hc
    have hfirst : ∀ c, (trim s).head? = some c → isWhitespace c = false := by
      intro c hc
      apply hhead s c
      rw [h5, List.head?_append, hc]
      rfl
    refine ⟨⟨pre, post.reverse, ?_, h2, fun c hc => h4 c (List.mem_reverse.1 hc), ?_⟩, hfirst, hlast⟩
    · rw [List.append_assoc, ← h5]; exact h1
    · intro ht
      rw [ht, List.nil_append] at h5
      cases hp : post.reverse with
      | nil => rfl
      | cons c r =>
        have hw := h4 c (by rw [← List.mem_reverse, hp]; simp)
        have := hhead s c (by rw [h5, hp]; rfl)
        rw [hw] at this
        cases this
  · rintro ⟨⟨pre, post, rfl, hpre, hpost, _⟩, hf, hl⟩
    rw [trim_append_white hpost]
    unfold trim
    rw [dropWhile_append_of_all hpre]
    have h1 : t.dropWhile isWhitespace = t := by
      cases t with
      | nil => rfl
      | cons c r => simp [hf c rfl]
    rw [h1]
    have h2 : t.reverse.dropWhile isWhitespace = t.reverse := by
      cases hr : t.reverse with
      | nil => rfl
      | cons c r =>
        have : t.getLast? = some c := by rw [List.getLast?_eq_head?_reverse, hr]; rfl
        simp [hl c this]
    rw [h2, List.reverse_reverse]

/-- A variable with two keys and a file with a blank line, spaces and a carriage return. -/
example : retrievePrivateKeys (Age.parsePrivateKey Toy.age)
    { Toy.host (.value c!"k1,k2") .notPresent with file := fun _ => .text c!"\n  k3\r\n\t\nk4" } c!"age" =
    .ok [c!"k1", c!"k2", c!"k3", c!"k4"] := by rfl

/-- An empty variable makes the keys of the file unusable. -/
example : retrievePrivateKeys AwsPrivateKey.parse
    { Toy.host .notPresent (.value []) with file := fun _ => .text c!"a.b.c" } c!"aws_kms" =
    .error (.privateKeyParsing (some (c!"aws_access_key_id", []))) := by rfl

/-! ## C26: retrieving the data key -/

theorem tries_split (env : KeyEnv) (im : IntegrationMetadata) (r : Except IntegrationError Bytes) :
    (∃ n : Nat, (tries env im)[n]? = some (r.map some) ∧ ∀ j < n, (tries env im)[j]? = some (.ok none)) ↔
    (env.findDataKey .age im.age = some r ∨
      env.findDataKey .age im.age = none ∧ env.findDataKey .kms im.kms = some r) := by
  rw [findDataKey_iff, findDataKey_iff, findDataKey_eq_none]
  unfold tries
  generalize hA : im.age.map (fun u => env.decryptDataKey .age u.keyId u.enc) = as
  generalize hK : im.kms.map (fun u => env.decryptDataKey .kms u.keyId u.enc) = ks
  have hall : (∀ u ∈ im.age, env.decryptDataKey .age u.keyId u.enc = .ok none) ↔
      ∀ j < as.length, as[j]? = some (.ok none) := by
    rw [← hA]
    constructor
    · intro h j hj
      rw [List.getElem?_eq_getElem hj, List.getElem_map, h _ (List.getElem_mem _)]
    · intro h u hu
      obtain ⟨j, hj, rfl⟩ := List.mem_iff_getElem.1 hu
      have := h j (by simpa using hj)
      rw [List.getElem?_map, List.getElem?_eq_getElem hj] at this
      simpa using this
  rw [hall]
  constructor
  · rintro ⟨n, h1, h2⟩
    by_cases hn : n < as.length
    · left
      refine ⟨n, by rwa [List.getElem?_append_left hn] at h1, fun j hj => ?_⟩
      have := h2 j hj
      rwa [List.getElem?_append_left (by omega)] at this
    · right
      refine ⟨fun j hj => ?_, n - as.length, by rwa [List.getElem?_append_right (by omega)] at h1, fun j hj => ?_⟩
      · have := h2 j (by omega)
        rwa [List.getElem?_append_left hj] at this
      · have := h2 (j + as.length) (by omega)
        rwa [List.getElem?_append_right (by omega), Nat.add_sub_cancel] at this
  · rintro (⟨n, h1, h2⟩ | ⟨h0, n, h1, h2⟩)
    · have hn : n < as.length := (List.getElem?_eq_some_iff.1 h1).1
      refine ⟨n, by rwa [List.getElem?_append_left hn], fun j hj => ?_⟩
      rw [List.getElem?_append_left (by omega)]
      exact h2 j hj
    · refine ⟨as.length + n, by rwa [List.getElem?_append_right (by omega), Nat.add_sub_cancel_left], fun j hj => ?_⟩
      by_cases hj' : j < as.length
      · rw [List.getElem?_append_left hj']; exact h0 j hj'
      · rw [List.getElem?_append_right (by omega)]; exact h2 _ (by omega)

/-- The retrieved data key is the one of the first unit that is not skipped, in the order
age units then KMS units. -/
theorem C26_first_not_skipped (env : KeyEnv) (im : IntegrationMetadata) (d : Bytes) :
    env.decryptAny im = .ok (some d) ↔
      ∃ n : Nat, (tries env im)[n]? = some (.ok (some d)) ∧ ∀ j < n, (tries env im)[j]? = some (.ok none) := by
  have := tries_split env im (.ok d)
  simp only [Except.map] at this
  rw [this]
  unfold KeyEnv.decryptAny
  cases env.findDataKey .age im.age with
  | none =>
    cases env.findDataKey .kms im.kms with
    | none => simp
    | some r => cases r <;> simp
  | some r => cases r <;> simp

/-- The retrieval fails exactly when the first unit that is not skipped fails, whatever
units come later. -/
theorem C26_error_hides_later (env : KeyEnv) (im : IntegrationMetadata) (e : IntegrationError) :
    env.decryptAny im = .error e ↔
      ∃ n : Nat, (tries env im)[n]? = some (.error e) ∧ ∀ j < n, (tries env im)[j]? = some (.ok none) := by
  have := tries_split env im (.error e)
  simp only [Except.map] at this
  rw [this]
  unfold KeyEnv.decryptAny
  cases env.findDataKey .age im.age with
  | none =>
    cases env.findDataKey .kms im.kms with
    | none => simp
    | some r => cases r <;> simp
  | some r => cases r <;> simp

/-- No key is found exactly when all units are skipped. -/
theorem C26_none_usable (env : KeyEnv) (im : IntegrationMetadata) :
    env.decryptAny im = .ok none ↔ ∀ r ∈ tries env im, r = .ok none := by
  unfold tries KeyEnv.decryptAny
  simp only [List.mem_append, List.mem_map]
  have ha := findDataKey_eq_none env .age im.age
  have hk := findDataKey_eq_none env .kms im.kms
  have key : (∀ r, ((∃ u ∈ im.age, env.decryptDataKey .age u.keyId u.enc = r) ∨
      ∃ u ∈ im.kms, env.decryptDataKey .kms u.keyId u.enc = r) → r = .ok none) ↔
      (env.findDataKey .age im.age = none ∧ env.findDataKey .kms im.kms = none) := by
    rw [ha, hk]
    constructor
    · intro h
      exact ⟨fun u hu => h _ (.inl ⟨u, hu, rfl⟩), fun u hu => h _ (.inr ⟨u, hu, rfl⟩)⟩
    · rintro ⟨h1, h2⟩ r (⟨u, hu, rfl⟩ | ⟨u, hu, rfl⟩)
      · exact h1 u hu
      · exact h2 u hu
  rw [key]
  cases env.findDataKey .age im.age with
  | none =>
    cases env.findDataKey .kms im.kms with
    | none => simp
    | some r => cases r <;> simp
  | some r => cases r <;> simp

/-- An age unit is skipped exactly when no private key belongs to its recipient. -/
theorem C26_age_skipped (env : KeyEnv) {ks : List env.A.Identity}
    (hks : retrievePrivateKeys (Age.parsePrivateKey env.A) env.host c!"age" = .ok ks) (u : IUnit .age) :
    env.decryptDataKey .age u.keyId u.enc = .ok none ↔ ∀ k ∈ ks, env.A.toPublic k ≠ u.keyId := by
  simp only [KeyEnv.decryptDataKey, Age.decryptDataKey, hks]
  cases hf : ks.find? (fun k => env.A.toPublic k == u.keyId) with
  | none =>
    simp only [true_iff]
    intro k hk
    have := List.find?_eq_none.1 hf k hk
    simpa using this
  | some k =>
    have h1 := List.find?_some hf
    have h2 := List.mem_of_find?_eq_some hf
    simp only [beq_iff_eq] at h1
    constructor
    · intro h
      exfalso
      simp only at h
      split at h
      · cases h
      · split at h <;> cases h
    · intro h; exact absurd h1 (h k h2)

/-- A KMS unit is skipped exactly when its text is base64 and there are no credentials for
its profile. -/
theorem C26_kms_skipped (env : KeyEnv) {ks : List AwsPrivateKey}
    (hks : retrievePrivateKeys AwsPrivateKey.parse env.host c!"aws_kms" = .ok ks) (u : IUnit .kms) :
    env.decryptDataKey .kms u.keyId u.enc = .ok none ↔
      Base64.decode u.enc ≠ none ∧ ∀ k ∈ ks, k.profile ≠ u.keyId.profile := by
  simp only [KeyEnv.decryptDataKey, Kms.decryptDataKey, Kms.findClient, hks]
  cases Base64.decode u.enc with
  | none => simp
  | some b =>
    cases hf : ks.find? (fun p => p.profile == u.keyId.profile) with
    | none =>
      simp only [ne_eq, reduceCtorEq, not_false_eq_true, true_and, true_iff]
      intro k hk
      have := List.find?_eq_none.1 hf k hk
      simpa using this
    | some k =>
      have h1 := List.find?_some hf
      have h2 := List.mem_of_find?_eq_some hf
      simp only [beq_iff_eq] at h1
      simp only [ne_eq, reduceCtorEq, not_false_eq_true, true_and]
      constructor
      · intro h
        exfalso
        revert h
        split
        · simp
        · simp
        · split <;> simp
      · intro h; exact absurd h1 (h k h2)

/-- One private key of an age recipient is enough: if no earlier unit has a private key,
the data key is the one wrapped for it. -/
theorem C26_one_key_is_enough (env : KeyEnv) (hA : AgeLaws env.A) {ks : List env.A.Identity}
    (hks : retrievePrivateKeys (Age.parsePrivateKey env.A) env.host c!"age" = .ok ks) (im : IntegrationMetadata)
    {a b : Units .age} {u : IUnit .age} (him : im.age = a ++ u :: b) {d : Bytes} (hd : d.length = dataKeySize)
    (hw : Wraps env.A env.K .age u d) {k : env.A.Identity} (hk : k ∈ ks) (hp : env.A.toPublic k = u.keyId)
    (hskip : ∀ x ∈ a, ∀ k ∈ ks, env.A.toPublic k ≠ x.keyId) : env.decryptAny im = .ok (some d) := by
  rw [C26_first_not_skipped]
  refine ⟨a.length, ?_, ?_⟩
  · have : env.decryptDataKey .age u.keyId u.enc = .ok (some d) := by
      simp only [KeyEnv.decryptDataKey, Age.decryptDataKey, hks]
      cases hf : ks.find? (fun k => env.A.toPublic k == u.keyId) with
      | none =>
        have := List.find?_eq_none.1 hf k hk
        simp [hp] at this
      | some k' =>
        have h1 := List.find?_some hf
        simp only [beq_iff_eq] at h1
        obtain ⟨i, hi⟩ := hw
        simp only [hA.unwrap_wrap h1 hi]
        rw [if_pos (by omega), ← hd, List.take_length]
    simp [tries, him, this]
  · intro j hj
    have hx := List.getElem_mem hj
    have := (C26_age_skipped env hks a[j]).2 (hskip _ hx)
    rw [tries, him, List.getElem?_append_left (by simp; omega), List.getElem?_map,
      List.getElem?_append_left hj, List.getElem?_eq_getElem hj, Option.map_some, this]

/-- A data key. -/
def sampleKey : Bytes := List.replicate 32 7

/-- The environment of the owner of the age identity "k2". -/
def sampleKeyEnv : KeyEnv where
  A := Toy.age
  K := Toy.kms
  host := Toy.host (.value c!"k2") .notPresent
  newKey i := List.replicate 32 (UInt8.ofNat i)
  clock _ := ⟨2024, 1, 2, 3, 4, 5, 0⟩

/-- Units for the identities "k1" and "k2". -/
def sampleUnits : IntegrationMetadata where
  kms := []
  age := [⟨c!"pk1", none, c!"pk1," ++ Base64.encode sampleKey⟩, ⟨c!"pk2", none, c!"pk2," ++ Base64.encode sampleKey⟩]

example : AllWrap sampleKeyEnv.A sampleKeyEnv.K sampleUnits sampleKey := by
  intro k u hu
  cases k with
  | age =>
    simp only [sampleUnits, IntegrationMetadata.units, List.mem_cons, List.not_mem_nil, or_false] at hu
    rcases hu with rfl | rfl <;> exact ⟨0, rfl⟩
  | kms => cases hu

example : sampleKeyEnv.decryptAny sampleUnits = .ok (some sampleKey) := by decide +kernel

/-- A damaged first unit hides the usable second one when its private key is at hand. -/
example : { sampleKeyEnv with host := Toy.host (.value c!"k1,k2") .notPresent : KeyEnv }.decryptAny
    { sampleUnits with age := [⟨c!"pk1", none, c!"?"⟩, ⟨c!"pk2", none, c!"pk2," ++ Base64.encode sampleKey⟩] } =
    .error .decryption := by decide +kernel

/-- A KMS unit that is not base64 fails even without credentials, where a well formed one
is skipped. -/
example :
    let id : AwsKeyId := ⟨c!"work", some c!"aws", c!"kms", c!"eu-1", some c!"123", some c!"key", c!"ab-c"⟩
    sampleKeyEnv.decryptAny { kms := [⟨id, none, c!"?"⟩], age := [] } = .error .decryption ∧
    sampleKeyEnv.decryptAny { kms := [⟨id, none, c!"AAAA"⟩], age := [] } = .ok none := by decide +kernel

end Rops.Props
