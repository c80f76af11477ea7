import Verif.Lemmas.DocFiles
import Verif.Lemmas.Decimals
import Verif.Spec.ToyDoc
import Verif.Props.Keys
/-!
# Files as documents and texts

C43 metadata documents, C44 file documents and the key "sops", C31 the order of TOML.
-/

namespace Rops.Props
open Spec

/-! ## C43 -/

/-- **C43.** Dates are written as in RFC 3339, with as many digits below the second, in threes, as
they need. -/
theorem C43_date_text {t : Timestamp} (ht : Calendar t) (s : Str) : s = t.docText ↔ FullDateText t s := by
  have hsplit : t.docText = t.toText.dropLast ++ (if t.nano = 0 then []
     else if t.nano % 1000000 = 0 then '.' :: padDigits 3 (t.nano / 1000000)
     else if t.nano % 1000 = 0 then '.' :: padDigits 6 (t.nano / 1000)
     else '.' :: padDigits 9 t.nano) ++ c!"Z" := by
    unfold Timestamp.docText Timestamp.toText
    rw [List.dropLast_concat]
  have htext : t.toText = t.toText.dropLast ++ c!"Z" := by
    unfold Timestamp.toText
    rw [List.dropLast_concat]
  have hn := ht.nano
  constructor
  · rintro rfl
    rw [hsplit]
    refine ⟨_, _, (dateText_iff ht.valid).2 htext.symm, rfl, ?_⟩
    split
    · exact .inl ⟨by assumption, rfl⟩
    refine .inr ⟨by assumption, ?_⟩
    split
    · exact ⟨3, 1000000, _, _, .inl ⟨rfl, rfl⟩, rfl, padDigits_length _ _, decimal_padDigits 2 (by omega), by omega, by omega⟩
    split
    · exact ⟨6, 1000, _, _, .inr (.inl ⟨rfl, rfl⟩), rfl, padDigits_length _ _, decimal_padDigits 5 (by omega), by omega,
        fun _ => by omega⟩
    · exact ⟨9, 1, _, _, .inr (.inr ⟨rfl, rfl⟩), rfl, padDigits_length _ _, decimal_padDigits 8 (by omega), by omega,
        fun _ => by omega⟩
  · rintro ⟨r, frac, hr, rfl, hf⟩
    have : r = t.toText.dropLast := by
      rw [← (dateText_iff ht.valid).1 hr, List.dropLast_concat]
    subst this
    rw [hsplit]
    rcases hf with ⟨h0, rfl⟩ | ⟨h0, w, unit, ds, n, hw, rfl, hl, hd, he, hmin⟩
    · rw [if_pos h0]
    · rw [if_neg h0]
      rcases hw with ⟨rfl, rfl⟩ | ⟨rfl, rfl⟩ | ⟨rfl, rfl⟩
      · rw [if_pos (by omega), show t.nano / 1000000 = n by omega,
          decimal_unique hd (decimal_padDigits 2 (by omega)) (hl.trans (padDigits_length _ _).symm)]
      · have := hmin (by decide)
        rw [if_neg (by omega), if_pos (by omega), show t.nano / 1000 = n by omega,
          decimal_unique hd (decimal_padDigits 5 (by omega)) (hl.trans (padDigits_length _ _).symm)]
      · have := hmin (by decide)
        rw [if_neg (by omega), if_neg (by omega), show t.nano = n by omega,
          decimal_unique hd (decimal_padDigits 8 (by omega)) (hl.trans (padDigits_length _ _).symm)]

example : FullDateText ⟨2024, 2, 29, 23, 59, 59, 50000⟩ c!"2024-02-29T23:59:59.000050Z" :=
  (C43_date_text ⟨by decide, by decide, by decide, by decide, by decide, by decide, by decide⟩ _).1 (by decide)

/-- **C43.** Writable metadata is read back from its document, with the fields in any order
(formats may reorder them). -/
theorem C43_metadata_round_trip {M : Type} {O : DocOps} (hO : DocLaws O) {showMac : M → Str} {parseMac : Str → Option M}
    {md : Metadata M} (h : Writable O showMac parseMac md) {d : RMap JsonScalar} (hd : d.Perm (md.toDoc showMac)) :
    Metadata.ofDoc O parseMac d = some md := Metadata.ofDoc_perm hO h hd

/-- **C43.** The metadata of every new file is writable, provided the texts of the given key
ids are read as those key ids, the clock gives calendar dates and the setting is valid. -/
theorem C43_created {O : DocOps} {env : Env} (he : EnvLaws env) (hc : ∀ i, Calendar (env.clock i)) {F : Format}
    {rep : Value → Prop} (hF : Format.Lawful F rep) {b : Builder F} {m : RMap Value} (hb : F.toInternal b.map = .ok m)
    (hfits : Fits env.fl rep b.partialEncryption m) (ha : ∀ id ∈ b.ageKeyIds, KeyWritable O .age id)
    (hk : ∀ id ∈ b.kmsKeyIds, KeyWritable O .kms id) (hs : ∀ p, b.partialEncryption = some p → p.ok O = true)
    {i j : Nat} {f : EncFile F} (h : b.encrypt env i = .ok (f, j)) : EncWritable O env.C f.metadata := by
  obtain ⟨m', _, _, hh, _⟩ := holding_of_builder he hF hb hfits h
  obtain ⟨_, _, _, im, i2, _, _, h3, _, _, h6⟩ := Builder.encrypt_ok h
  refine encWritable_of he hh ?_ ?_ ?_
  · rw [h6]; exact unitsOk_intoMetadata hc ha hk h3
  · rw [h6]; exact (hc i2).truncate
  · rw [h6]; exact hs

/-- **C43.** Adding writable keys keeps the metadata of a file writable. -/
theorem C43_added_keys {O : DocOps} {env : Env} (he : EnvLaws env) (hc : ∀ i, Calendar (env.clock i)) {F : Format}
    {rep : Value → Prop} {f f' : EncFile F} {key : Bytes} {m : RMap Value} {m' : RMap EncLeaf}
    (hh : Holding env rep f key m m') (hw : EncWritable O env.C f.metadata) {k : Kind} {ids : List k.Id}
    (hids : ∀ id ∈ ids, KeyWritable O k id) {i j : Nat} (h : f.addKeys env k ids i = (.ok (), f', j)) :
    EncWritable O env.C f'.metadata := by
  obtain ⟨hh', _⟩ := holding_addKeys he hh h
  obtain ⟨d, im, _, h1, rfl⟩ := File.addKeys_ok h
  exact encWritable_of he hh' (unitsOk_addKeys hc hids hw.unitsOk h1) hw.modified hw.setting

/-- **C43.** Whatever keys are removed from a decrypted file, and whatever map it is given,
encrypting it again gives writable metadata, if those of the file before were. -/
theorem C43_edited {O : DocOps} {env env' : Env} (he : EnvLaws env') (hc : ∀ i, Calendar (env'.clock i))
    {F : Format} {rep : Value → Prop} (hF : Format.Lawful F rep) {f f' : EncFile F}
    (hw : EncWritable O env.C f.metadata) {g g1 g2 : DecFile F} (hg : g.metadata = decMetadata f.metadata g.metadata.mac)
    {k : Kind} {id : k.Id} {res : Except IntegrationError (Option (IUnit k))} {i1 j1 c i j : Nat}
    (hr : g.removeKey env' k id i1 = (res, g1, j1)) {other : F.Map} {m : RMap Value}
    (ho : F.toInternal other = .ok m) (hfits : Fits env'.fl rep g.metadata.partialEncryption m)
    (hs : g1.setMap env' other c = .ok g2) {key : Bytes} (hkey : key.length = dataKeySize)
    (hwr : AllWrap env'.A env'.K g1.metadata.integration key) (hids : ∀ k, (keyIds g1.metadata.integration k).Nodup)
    {sm : Option SavedNonces} {sc : Option SavedMacNonce} (hsm : SavedSized env'.C sm)
    (hsc : ∀ s, sc = some s → s.nonce.length = env'.C.nonceSize)
    (hf : g2.encryptWith F env' key sm sc i = .ok (f', j)) : EncWritable O env'.C f'.metadata := by
  have hu : UnitsOk O g1.metadata.integration ∧ g1.metadata.partialEncryption = g.metadata.partialEncryption ∧
      g1.metadata.lastModified = g.metadata.lastModified := by
    unfold DecFile.removeKey at hr
    cases hx : env'.removeKey k id g.metadata.integration i1 with
    | mk r p =>
      obtain ⟨im, j'⟩ := p
      rw [hx] at hr
      simp only [Prod.mk.injEq] at hr
      obtain ⟨_, rfl, _⟩ := hr
      have h0 : UnitsOk O g.metadata.integration := by rw [hg]; exact hw.unitsOk
      exact ⟨unitsOk_removeKey h0 hx, rfl, rfl⟩
  obtain ⟨x, hx1, hx2⟩ := hF.round_trip m hfits.holds
  unfold DecFile.setMap at hs
  simp only [ho, hx1, Except.ok.injEq] at hs
  subst hs
  obtain ⟨m', _, hh, hmd, _⟩ := holding_of_encryptWith he hF (g := ⟨x, { g1.metadata with
      lastModified := if (!F.eq g1.map other) = true then (env'.clock c).truncate else g1.metadata.lastModified,
      mac := env'.macOf g1.metadata m }⟩) (m := m) ⟨hx2, Env.macOf_eq he.hasher _ _⟩
    (by simp only [hu.2.1]; exact hfits) hkey hwr hids hsm hsc hf
  refine encWritable_of he hh ?_ ?_ ?_
  · rw [hmd]; exact hu.1
  · rw [hmd]
    show Calendar (if (!F.eq g1.map other) = true then (env'.clock c).truncate else g1.metadata.lastModified)
    split
    · exact (hc c).truncate
    · rw [hu.2.2, hg]; exact hw.modified
  · rw [hmd]
    show ∀ p, g1.metadata.partialEncryption = some p → _
    rw [hu.2.1, hg]
    exact hw.setting

theorem nodup_foldl_insert {k : Kind} (us acc : Units k) (h : (acc.map IUnit.keyId).Nodup) :
    ((us.foldl Units.insert acc).map IUnit.keyId).Nodup := by
  induction us generalizing acc with
  | nil => exact h
  | cons u r ih =>
    rw [List.foldl_cons]
    apply ih
    rw [Units.map_insert]
    split
    · exact h
    · rename_i hu
      rw [List.nodup_append]
      refine ⟨h, by simp, ?_⟩
      rintro a ha b hb rfl
      rw [List.mem_singleton] at hb
      exact hu (hb ▸ ha)

theorem unitsOfField_nodup {O : DocOps} {k : Kind} {d : RMap JsonScalar} {n : Str} {us : Units k}
    (h : unitsOfField O k d n = some us) : (us.map IUnit.keyId).Nodup := by
  unfold unitsOfField Units.ofDoc at h
  split at h
  · cases h
  · cases h; exact List.nodup_nil
  · split at h
    · split at h
      · cases h; exact nodup_foldl_insert _ [] List.nodup_nil
      · cases h
    · cases h

/-- **C43.** Metadata that was read from a document, whatever the document, is written so that
it is read back, if its dates are calendar dates and the texts of its key ids are read as
those key ids. -/
theorem C43_read_again {O : DocOps} {C : Cipher} (hC : ',' ∉ C.name) {d : RMap JsonScalar} {md : Metadata EncValue}
    (h : Metadata.ofDoc O (fun s => (EncValue.parse C s).toOption) d = some md)
    (hk : ∀ k, ∀ id ∈ keyIds md.integration k, KeyWritable O k id)
    (hcr : ∀ k, ∀ u ∈ md.integration.units k, ∀ t, u.createdAt = some t → Calendar t)
    (hm : Calendar md.lastModified) : EncWritable O C md := by
  unfold Metadata.ofDoc at h
  split at h
  · rename_i kms age lm mac mo h1 h2 h3 h4 h5
    cases h
    refine ⟨?_, hk, hcr, hm, ?_, ?_⟩
    · intro k
      cases k
      · exact unitsOfField_nodup h2
      · exact unitsOfField_nodup h1
    · unfold parsedOfDoc at h4
      split at h4
      · rename_i s _
        simp only at h4
        cases hp : EncValue.parse C s with
        | error e => rw [hp] at h4; cases h4
        | ok e =>
          rw [hp] at h4
          cases h4
          show (EncValue.parse C (EncValue.toText C mac)).toOption = some mac
          rw [EncValue.parse_toText hC (EncValue.sized_of_parse hC hp)]
          rfl
      · cases h4
    · intro p hp
      simp only at hp
      clear h1 h2 h3 h4 h5 hk hcr hm
      induction d with
      | nil => cases hp
      | cons x r ih =>
        obtain ⟨k, v⟩ := x
        simp only [PartialEncryption.ofDoc] at hp
        split at hp
        · exact ih hp
        · split at hp
          · split at hp
            · rename_i hok; cases hp; exact hok
            · cases hp
          · cases hp
  · cases h

/-- A key id whose ARN came from a text and has all its parts is writable; a recipient that
came from a text is, if its text is canonical. -/
theorem C43_parsed_arn_writable {O : DocOps} {s : Str} {k : AwsKeyId} (h : KeyArn.parse O.arn s = .ok k.arn)
    (hp : k.arn.partition ≠ none) (ha : k.arn.account ≠ none) : KeyWritable O .kms k :=
  (C40_arn_round_trip h hp ha).2

/-- **C43, limit.** A unit whose ARN lacks the partition or the account is not read back. -/
theorem C43_incomplete_arn {O : DocOps} {s : Str} {u : IUnit .kms} (h : KeyArn.parse O.arn s = .ok u.keyId.arn)
    (hm : u.keyId.arn.partition = none ∨ u.keyId.arn.account = none) : IUnit.ofDoc O .kms u.toDoc ≠ some u := by
  intro he
  have hbad := C40_arn_missing_part h hm
  obtain ⟨⟨profile, arn⟩, cr, enc⟩ := u
  simp only at hbad
  have hid : keyIdOfDoc O .kms (IUnit.toDoc (k := .kms) ⟨(⟨profile, arn⟩ : AwsKeyId), cr, enc⟩) =
      match KeyArn.parse O.arn arn.toText with
      | .ok arn => some { profile, arn }
      | .error _ => none := by
    cases cr <;> simp [IUnit.toDoc, keyIdToDoc, keyIdOfDoc, docStr, docField, Json.text] <;> rfl
  unfold IUnit.ofDoc at he
  rw [hid] at he
  split at he
  · rename_i id _ _ h1 _ _
    cases he
    split at h1
    · rename_i arn' hp
      cases h1
      exact hbad hp
    · cases h1
  · cases he

/-- **C43, limit.** A document with a pattern that is not accepted is read without an error,
as if it had no partial encryption setting. -/
theorem C43_bad_pattern_dropped {M : Type} {O : DocOps} (hO : DocLaws O) {showMac : M → Str} {parseMac : Str → Option M}
    {md : Metadata M} {p : PartialEncryption} (hp : p.ok O = false) (hpe : md.partialEncryption = some p)
    (h : Writable O showMac parseMac { md with partialEncryption := none }) :
    Metadata.ofDoc O parseMac (md.toDoc showMac) = some { md with partialEncryption := none } := by
  have hfields : ∀ k, k ≠ p.toDoc.1 → docField (md.toDoc showMac) k =
      docField (({ md with partialEncryption := none } : Metadata M).toDoc showMac) k := by
    intro k hk
    have hb : (p.toDoc.1 == k) = false := beq_eq_false_iff_ne.2 fun e => hk e.symm
    unfold docField Metadata.toDoc
    simp only [hpe, List.append_assoc, List.filter_append, List.filter_cons, hb, Bool.false_eq_true, if_false,
      List.filter_nil, List.nil_append]
  have hrest := Metadata.ofDoc_perm hO h (List.Perm.refl _)
  have hpe' : PartialEncryption.ofDoc O (md.toDoc showMac) = none := by
    have happ : ∀ (a b : RMap JsonScalar), (∀ e ∈ a, PartialEncryption.ofName e.1 = none) →
        PartialEncryption.ofDoc O (a ++ p.toDoc :: b) = none := by
      intro a b ha
      induction a with
      | nil =>
        obtain ⟨make, s, h1, h2, h3⟩ := p.ofName_toDoc
        rcases hx : p.toDoc with ⟨k, v⟩
        rw [hx] at h1 h2
        simp only at h1 h2
        simp only [List.nil_append, PartialEncryption.ofDoc, h1, h2, h3, hp, Bool.false_eq_true, if_false]
      | cons x r ih =>
        obtain ⟨k, v⟩ := x
        have := ha (k, v) (by simp)
        simp only at this
        simp only [List.cons_append, PartialEncryption.ofDoc, this]
        exact ih fun e he => ha e (by simp [he])
    have hd : ∃ a b, md.toDoc showMac = a ++ p.toDoc :: b ∧ ∀ e ∈ a, PartialEncryption.ofName e.1 = none := by
      refine ⟨unitsField c!"kms" md.integration.kms ++ unitsField c!"age" md.integration.age ++
        [(c!"lastmodified", Json.text md.lastModified.docText), (c!"mac", Json.text (showMac md.mac))],
        (match md.macOnlyEncrypted with | some b => [(c!"mac_only_encrypted", .leaf (.bool b))] | none => []), ?_, ?_⟩
      · unfold Metadata.toDoc
        simp only [hpe, List.append_assoc, List.cons_append, List.nil_append]
        rfl
      · intro e he
        unfold unitsField at he
        simp only [List.mem_append] at he
        rcases he with (he | he) | he
        · split at he
          · cases he
          · rw [List.mem_singleton] at he; subst he; rfl
        · split at he
          · cases he
          · rw [List.mem_singleton] at he; subst he; rfl
        · simp only [List.mem_cons, List.not_mem_nil, or_false] at he
          rcases he with rfl | rfl <;> rfl
    obtain ⟨a, b, h1, h2⟩ := hd
    rw [h1]
    exact happ a b h2
  have hpe0 : PartialEncryption.ofDoc O (({ md with partialEncryption := none } : Metadata M).toDoc showMac) = none :=
    ofDoc_pe showMac _ (fun _ h => by cases h) (List.Perm.refl _)
  have hne : ∀ k, PartialEncryption.ofName k = none → k ≠ p.toDoc.1 := by
    rintro k hk rfl
    obtain ⟨make, s, h1, _⟩ := p.ofName_toDoc
    rw [hk] at h1
    cases h1
  unfold Metadata.ofDoc unitsOfField reqDateOfDoc parsedOfDoc boolOfDoc docStr at hrest ⊢
  rw [hfields c!"kms" (hne _ rfl), hfields c!"age" (hne _ rfl), hfields c!"lastmodified" (hne _ rfl),
    hfields c!"mac" (hne _ rfl), hfields c!"mac_only_encrypted" (hne _ rfl), hpe']
  rw [hpe0] at hrest
  exact hrest

/-- The names of the fields of metadata. -/
def knownFields : List Str :=
  [c!"kms", c!"age", c!"lastmodified", c!"mac", c!"mac_only_encrypted", c!"encrypted_suffix", c!"encrypted_regex",
   c!"unencrypted_suffix", c!"unencrypted_regex"]

/-- **C43, limit.** Fields of other names (such as the keys of other services in files made by
other tools) are not noticed, hence lost when the file is written. -/
theorem C43_unknown_fields_lost {M : Type} (O : DocOps) (parseMac : Str → Option M) (a b : RMap JsonScalar) {k : Str}
    (hk : k ∉ knownFields) (v : Json) : Metadata.ofDoc O parseMac (a ++ (k, v) :: b) = Metadata.ofDoc O parseMac (a ++ b) := by
  have hfields : ∀ k' ∈ knownFields, docField (a ++ (k, v) :: b) k' = docField (a ++ b) k' := by
    intro k' hk'
    have hb : (k == k') = false := beq_eq_false_iff_ne.2 fun e => hk (e ▸ hk')
    unfold docField
    simp only [List.filter_append, List.filter_cons, hb, Bool.false_eq_true, if_false]
  have hname : PartialEncryption.ofName k = none := by
    simp only [knownFields, List.mem_cons, List.not_mem_nil, or_false, not_or] at hk
    obtain ⟨_, _, _, _, _, h1, h2, h3, h4⟩ := hk
    simp only [PartialEncryption.ofName, h1, h2, h3, h4, if_false]
  have hpe : PartialEncryption.ofDoc O (a ++ (k, v) :: b) = PartialEncryption.ofDoc O (a ++ b) := by
    induction a with
    | nil => simp only [List.nil_append, PartialEncryption.ofDoc, hname]
    | cons x r ih =>
      obtain ⟨k', v'⟩ := x
      have ih := ih (by
        intro k'' hk''
        have hb : (k == k'') = false := beq_eq_false_iff_ne.2 fun e => hk (e ▸ hk'')
        unfold docField
        simp only [List.filter_append, List.filter_cons, hb, Bool.false_eq_true, if_false])
      simp only [List.cons_append, PartialEncryption.ofDoc, ih]
  unfold Metadata.ofDoc unitsOfField reqDateOfDoc parsedOfDoc boolOfDoc docStr
  rw [hfields c!"kms" (by decide), hfields c!"age" (by decide), hfields c!"lastmodified" (by decide),
    hfields c!"mac" (by decide), hfields c!"mac_only_encrypted" (by decide), hpe]

/-- Writable metadata of a new file. -/
theorem toy_writable {f : EncFile Format.json} {j : Nat} (h : Toy.builder.encrypt Toy.env 0 = .ok (f, j)) :
    EncWritable Toy.docOps Toy.env.C f.metadata :=
  C43_created (O := Toy.docOps) (b := Toy.builder) Toy.env_laws Toy.env_clock Format.json_lawful Toy.doc_read
    Toy.docMap_fits (fun _ _ => rfl) (fun _ h => nomatch h) (fun _ h => by cases h; rfl) h

example : ∃ f j, Toy.builder.encrypt Toy.env 0 = .ok (f, j) ∧
    Metadata.ofDoc Toy.docOps (fun s => (EncValue.parse Toy.env.C s).toOption)
      (f.metadata.toDoc fun e => e.toText Toy.env.C).reverse = some f.metadata := by
  obtain ⟨f, j, h, _⟩ := Toy.builder_ok
  exact ⟨f, j, h, C43_metadata_round_trip Toy.docOps_laws (toy_writable h) (List.reverse_perm _)⟩

/-- Keys added to the file, one of them with an ARN. -/
example : ∃ f j f' j', Toy.builder.encrypt Toy.env 0 = .ok (f, j) ∧
    f.addKeys Toy.env .age [c!"pk3"] j = (.ok (), f', j') ∧ EncWritable Toy.docOps Toy.env.C f'.metadata := by
  have hc : (match Toy.builder.encrypt Toy.env 0 with
      | .error _ => false
      | .ok (f, j) => match f.addKeys Toy.env .age [c!"pk3"] j with
        | (.ok (), _, _) => true
        | _ => false) = true := by decide +kernel
  obtain ⟨f, j, h, _⟩ := Toy.builder_ok
  simp only [h] at hc
  split at hc
  · rename_i f' j' h2
    obtain ⟨_, _, _, hh, _⟩ := holding_of_builder Toy.env_laws Format.json_lawful Toy.doc_read Toy.docMap_fits h
    exact ⟨f, j, f', j', h, h2, C43_added_keys (k := .age) Toy.env_laws Toy.env_clock hh
      (toy_writable h) (fun _ _ => rfl) h2⟩
  · cases hc

/-- An ARN without an account is accepted in the arguments; a file with this key is written,
and its metadata is not read as it was. -/
theorem C43_incomplete_arn_accepted : ∃ (id : AwsKeyId) (md : Metadata Str),
    AwsKeyId.parse Toy.arns c!"default.arn:aws:kms:eu::key/k9" = .ok id ∧
    keyIds md.integration .kms = [id] ∧
    Metadata.ofDoc Toy.docOps some (md.toDoc (fun s => s)) ≠ some md := by
  refine ⟨⟨c!"default", ⟨some c!"aws", c!"kms", c!"eu", none, some c!"key", c!"k9"⟩⟩,
    ⟨⟨[⟨(⟨c!"default", ⟨some c!"aws", c!"kms", c!"eu", none, some c!"key", c!"k9"⟩⟩ : AwsKeyId), none, c!"x"⟩], []⟩,
      ⟨2024, 1, 2, 3, 4, 5, 0⟩, c!"mac", none, none⟩, by decide +kernel, rfl, ?_⟩
  have h : (match Metadata.ofDoc Toy.docOps some (Metadata.toDoc (fun s => s) (⟨⟨[⟨(⟨c!"default", ⟨some c!"aws", c!"kms",
      c!"eu", none, some c!"key", c!"k9"⟩⟩ : AwsKeyId), none, c!"x"⟩], []⟩,
      ⟨2024, 1, 2, 3, 4, 5, 0⟩, c!"mac", none, none⟩ : Metadata Str)) with
      | none => true | some _ => false) = true := by decide +kernel
  intro hs
  rw [hs] at h
  cases h

/-! ## C44 -/

/-- **C44.** A JSON file without a top-level key "sops" is read from its text as it was. -/
theorem C44_json {O : DocOps} (hO : DocLaws O) {C : Cipher} {T : TextOps .json} {ok : DocFormat.json.F.Map → Prop}
    (hT : TextLaws T ok) {f : EncFile DocFormat.json.F} (hk : ∀ e ∈ (show List (Str × Json) from f.map), e.1 ≠ c!"sops")
    (hw : EncWritable O C f.metadata) (hok : ok (f.toDoc .json C)) :
    EncFile.ofText T O C (EncFile.toText T C f) = some f := by
  unfold EncFile.ofText EncFile.toText
  rw [hT.parse_render _ hok]
  have hk' : sopsKey ∉ (show List (Str × Json) from f.map).map Prod.fst := by
    intro h
    obtain ⟨e, he, hek⟩ := List.mem_map.1 h
    exact hk e he hek
  show EncFile.ofDoc .json O C (Json.addSops f.map (f.metadata.toDoc fun e => e.toText C)) = some f
  unfold EncFile.ofDoc
  have ht : DocFormat.json.takeSops (Json.addSops f.map (f.metadata.toDoc fun e => e.toText C)) =
    some (f.map, f.metadata.toDoc fun e => e.toText C) := Json.take_add hk'
  rw [ht]
  simp only [Metadata.ofDoc_perm hO hw (List.Perm.refl _)]

/-- **C44.** The same for YAML. -/
theorem C44_yaml {O : DocOps} (hO : DocLaws O) {C : Cipher} {T : TextOps .yaml} {ok : DocFormat.yaml.F.Map → Prop}
    (hT : TextLaws T ok) {f : EncFile DocFormat.yaml.F}
    (hk : ∀ e ∈ (show List (Yaml × Yaml) from f.map), e.1 ≠ .str c!"sops")
    (hw : EncWritable O C f.metadata) (hok : ok (f.toDoc .yaml C)) :
    EncFile.ofText T O C (EncFile.toText T C f) = some f := by
  unfold EncFile.ofText EncFile.toText
  rw [hT.parse_render _ hok]
  show EncFile.ofDoc .yaml O C (Yaml.addSops f.map (f.metadata.toDoc fun e => e.toText C)) = some f
  unfold EncFile.ofDoc
  have ht : DocFormat.yaml.takeSops (Yaml.addSops f.map (f.metadata.toDoc fun e => e.toText C)) =
    some (f.map, f.metadata.toDoc fun e => e.toText C) := Yaml.take_add hk
  rw [ht]
  simp only [Metadata.ofDoc_perm hO hw (List.Perm.refl _)]

/-- **C44.** For TOML the entries of the file that is read are in the order of the text, and an
entry "sops" of the map is gone: the metadata was written in its place. -/
theorem C44_toml {O : DocOps} (hO : DocLaws O) {C : Cipher} {T : TextOps .toml} {ok : DocFormat.toml.F.Map → Prop}
    (hT : TextLaws T ok) {f : EncFile DocFormat.toml.F} {m' : RMap EncLeaf} (hm : Format.toml.encOfInternal C m' = some f.map)
    (hn : (topKeys m').Nodup) (hw : EncWritable O C f.metadata) (hok : ok (f.toDoc .toml C)) :
    ∃ f' : EncFile Format.toml, EncFile.ofText T O C (EncFile.toText T C f) = some f' ∧
      f'.metadata = f.metadata ∧ Format.toml.encOfInternal C (tomlReread m') = some f'.map := by
  obtain ⟨map, md⟩ := f
  have hm : some (Toml.ofMap (Toml.ofEncLeaf C) m') = some map := hm
  cases hm
  unfold EncFile.ofText EncFile.toText
  rw [hT.parse_render _ hok]
  refine ⟨⟨Toml.ordered ((Toml.ofMap (Toml.ofEncLeaf C) m').filter fun e => e.1 != sopsKey), md⟩, ?_, rfl, ?_⟩
  · show EncFile.ofDoc .toml O C (Toml.ordered (Toml.addSops (Toml.ofMap (Toml.ofEncLeaf C) m')
      (md.toDoc fun e => e.toText C))) = _
    have ht : DocFormat.toml.takeSops (Toml.ordered (Toml.addSops (Toml.ofMap (Toml.ofEncLeaf C) m')
        (md.toDoc fun e => e.toText C))) = _ := Toml.take_add (by rw [Toml.keys_ofMap]; exact hn)
    unfold EncFile.ofDoc
    rw [ht]
    simp only [Metadata.ofDoc_perm hO hw (Toml.metadata_perm _ _)]
    rfl
  · show some (Toml.ofMap (Toml.ofEncLeaf C) (tomlReread m')) = _
    congr 1
    unfold tomlReread
    rw [← Toml.ordered_ofMap (tomlLeaf_ofEncLeaf C)]
    congr 1
    rw [Toml.ofMap_eq, Toml.ofMap_eq, List.filter_map]
    rfl

/-- **C44, negative.** A JSON file with a top-level key "sops" is not read from its text. -/
theorem C44_json_sops {O : DocOps} {C : Cipher} {T : TextOps .json} {ok : DocFormat.json.F.Map → Prop} (hT : TextLaws T ok)
    {f : EncFile DocFormat.json.F} (hk : ∃ e ∈ (show List (Str × Json) from f.map), e.1 = c!"sops")
    (hok : ok (f.toDoc .json C)) : EncFile.ofText T O C (EncFile.toText T C f) = none := by
  unfold EncFile.ofText EncFile.toText
  rw [hT.parse_render _ hok]
  have ht : DocFormat.json.takeSops (Json.addSops f.map (f.metadata.toDoc fun e => e.toText C)) = none := by
    obtain ⟨e, he, hek⟩ := hk
    exact Json.take_add_none (List.mem_map.2 ⟨e, he, hek⟩)
  show EncFile.ofDoc .json O C (Json.addSops f.map (f.metadata.toDoc fun e => e.toText C)) = none
  unfold EncFile.ofDoc
  rw [ht]

/-- **C44, negative.** The same for YAML. -/
theorem C44_yaml_sops {O : DocOps} {C : Cipher} {T : TextOps .yaml} {ok : DocFormat.yaml.F.Map → Prop} (hT : TextLaws T ok)
    {f : EncFile DocFormat.yaml.F} (hk : ∃ e ∈ (show List (Yaml × Yaml) from f.map), e.1 = .str c!"sops")
    (hok : ok (f.toDoc .yaml C)) : EncFile.ofText T O C (EncFile.toText T C f) = none := by
  unfold EncFile.ofText EncFile.toText
  rw [hT.parse_render _ hok]
  have ht : DocFormat.yaml.takeSops (Yaml.addSops f.map (f.metadata.toDoc fun e => e.toText C)) = none :=
    Yaml.take_add_none hk
  show EncFile.ofDoc .yaml O C (Yaml.addSops f.map (f.metadata.toDoc fun e => e.toText C)) = none
  unfold EncFile.ofDoc
  rw [ht]

theorem holding_topKeys {env : Env} {F : Format} {rep : Value → Prop} {f : EncFile F} {key : Bytes} {m : RMap Value}
    {m' : RMap EncLeaf} (h : Holding env rep f key m m') : topKeys m' = topKeys m := topKeys_shape h.sealed.1

/-- **C44.** An encryption of a map in JSON is read from its text exactly if the map has no
top-level key "sops"; then the file read is the same. -/
theorem C44_json_encryption {O : DocOps} (hO : DocLaws O) {env : Env} {T : TextOps .json} {ok : DocFormat.json.F.Map → Prop}
    (hT : TextLaws T ok) {rep : Value → Prop} {f : EncFile DocFormat.json.F} {key : Bytes} {m : RMap Value}
    {m' : RMap EncLeaf} (h : Holding env rep f key m m') (hw : EncWritable O env.C f.metadata)
    (hok : ok (f.toDoc .json env.C)) :
    EncFile.ofText T O env.C (EncFile.toText T env.C f) = if c!"sops" ∈ topKeys m then none else some f := by
  have hkeys : (show List (Str × Json) from f.map).map Prod.fst = topKeys m := by
    rw [← holding_topKeys h, ← topKeys_mapM (show Tree.mapMapM (JsonScalar.encOfInternal env.C) m' = some f.map from h.written)]
    rfl
  split
  · rename_i hs
    rw [← hkeys] at hs
    obtain ⟨e, he, hek⟩ := List.mem_map.1 hs
    exact C44_json_sops hT ⟨e, he, hek⟩ hok
  · rename_i hs
    rw [← hkeys] at hs
    exact C44_json hO hT (fun e he hek => hs (List.mem_map.2 ⟨e, he, hek⟩)) hw hok

/-- **C44.** The same for YAML. -/
theorem C44_yaml_encryption {O : DocOps} (hO : DocLaws O) {env : Env} {T : TextOps .yaml} {ok : DocFormat.yaml.F.Map → Prop}
    (hT : TextLaws T ok) {rep : Value → Prop} {f : EncFile DocFormat.yaml.F} {key : Bytes} {m : RMap Value}
    {m' : RMap EncLeaf} (h : Holding env rep f key m m') (hw : EncWritable O env.C f.metadata)
    (hok : ok (f.toDoc .yaml env.C)) :
    EncFile.ofText T O env.C (EncFile.toText T env.C f) = if c!"sops" ∈ topKeys m then none else some f := by
  have hmap : (show List (Yaml × Yaml) from f.map) = Yaml.ofMap (Yaml.ofEncLeaf env.C) m' := by
    have := h.written
    have : some (Yaml.ofMap (Yaml.ofEncLeaf env.C) m') = some f.map := this
    exact (Option.some.inj this).symm
  rw [← holding_topKeys h]
  split
  · rename_i hs
    obtain ⟨e, he, hek⟩ := List.mem_map.1 hs
    refine C44_yaml_sops hT ⟨(.str e.1, Yaml.ofTree (Yaml.ofEncLeaf env.C) e.2), ?_, by rw [← hek]⟩ hok
    rw [hmap, Yaml.ofMap_eq]
    exact List.mem_map.2 ⟨e, he, rfl⟩
  · rename_i hs
    refine C44_yaml hO hT (fun e he hek => hs ?_) hw hok
    rw [hmap, Yaml.ofMap_eq] at he
    obtain ⟨x, hx, rfl⟩ := List.mem_map.1 he
    simp only [Yaml.str.injEq] at hek
    rw [← hek]
    exact List.mem_map_of_mem hx

example : ∃ f j, Toy.builder.encrypt Toy.env 0 = .ok (f, j) ∧
    EncFile.ofText Toy.jsonText Toy.docOps Toy.env.C (EncFile.toText Toy.jsonText Toy.env.C f) = some f := by
  obtain ⟨f, j, h, _⟩ := Toy.builder_ok
  obtain ⟨_, _, _, hh, _⟩ := holding_of_builder Toy.env_laws Format.json_lawful Toy.doc_read Toy.docMap_fits h
  refine ⟨f, j, h, ?_⟩
  rw [C44_json_encryption Toy.docOps_laws Toy.jsonText_laws (f := f) hh (toy_writable h) trivial]
  rfl

/-- A text is read as the document in the order of the format. -/
theorem ofText_toText {D : DocFormat} {T : TextOps D} {ok : D.F.Map → Prop} (hT : TextLaws T ok) {O : DocOps} {C : Cipher}
    {f : EncFile D.F} (hok : ok (f.toDoc D C)) :
    EncFile.ofText T O C (EncFile.toText T C f) = EncFile.ofDoc D O C (D.order (f.toDoc D C)) := by
  unfold EncFile.ofText EncFile.toText
  rw [hT.parse_render _ hok]

/-- A JSON document with the key "sops". -/
def sopsBuilder : Builder Format.json where
  map := [(c!"a", .leaf (.str c!"x")), (c!"sops", .map [(c!"b", .leaf (.str c!"y"))])]
  partialEncryption := none
  macOnlyEncrypted := none
  ageKeyIds := [c!"pk1"]
  kmsKeyIds := []

/-- **C44, negative.** Encryption accepts a document with the key "sops" and the file decrypts,
but its text is not read by anyone. -/
theorem C44_sops_accepted : ∃ (f : EncFile DocFormat.json.F) (j : Nat), sopsBuilder.encrypt Toy.env 0 = .ok (f, j) ∧
    (∃ g : DecFile Format.json, f.decrypt Format.json Toy.env = .ok g) ∧
    ∀ (O : DocOps) (T : TextOps .json), TextLaws T (· = f.toDoc .json Toy.env.C) →
      EncFile.ofText T O Toy.env.C (EncFile.toText T Toy.env.C f) = none := by
  have hc : (match sopsBuilder.encrypt Toy.env 0 with
      | .error _ => false
      | .ok (f, _) => (match f.decrypt Format.json Toy.env with | .ok _ => true | .error _ => false) &&
          (show List (Str × Json) from f.map).any fun e => e.1 == c!"sops") = true := by decide +kernel
  split at hc
  · cases hc
  · rename_i f j h
    rw [Bool.and_eq_true] at hc
    obtain ⟨hd, hs⟩ := hc
    obtain ⟨e, he, hek⟩ := List.any_eq_true.1 hs
    have hek := beq_iff_eq.1 hek
    refine ⟨f, j, h, ?_, fun O T hT => C44_json_sops hT ⟨e, he, hek⟩ rfl⟩
    split at hd
    · rename_i g hg; exact ⟨g, hg⟩
    · cases hd

/-! ## C31 -/

/-- **C31.** An encryption of a map in TOML that was written and read: everyone who finds the
data key can decrypt it exactly if the MAC of the map as it comes from the text is that of the
map encrypted, and then gets the map as it comes from the text. -/
theorem C31_reread_iff {O : DocOps} (hO : DocLaws O) {env : Env} (he : EnvLaws env) {T : TextOps .toml}
    {ok : DocFormat.toml.F.Map → Prop} (hT : TextLaws T ok) {f : EncFile DocFormat.toml.F} {key : Bytes} {m : RMap Value}
    {m' : RMap EncLeaf} (h : Holding env tomlRep f key m m') (hn : (topKeys m).Nodup)
    (hw : EncWritable O env.C f.metadata) (hok : ok (f.toDoc .toml env.C))
    {d : Bytes} (hr : env.retrieveDataKey f.metadata = .ok d) :
    ∃ f' : EncFile Format.toml, EncFile.ofText T O env.C (EncFile.toText T env.C f) = some f' ∧
      ((∃ g : DecFile Format.toml, f'.decrypt Format.toml env = .ok g) ↔
        macText env.H env.rx f.metadata.partialEncryption f.metadata.macOnlyEncrypted (tomlReread m) =
        macText env.H env.rx f.metadata.partialEncryption f.metadata.macOnlyEncrypted m) ∧
      (∀ g : DecFile Format.toml, f'.decrypt Format.toml env = .ok g → Plaintext env g (tomlReread m)) := by
  obtain ⟨f', h1, h2, h3⟩ := C44_toml hO hT (show Format.toml.encOfInternal env.C m' = some f.map from h.written)
    (by rw [holding_topKeys h]; exact hn) hw hok
  have hfits := fits_tomlReread h.fits
  have hsealed := sealed_tomlReread h.sealed
  obtain ⟨x, hx1, hx2⟩ := Format.toml_lawful.enc_round_trip env.C he.cipher.name_no_comma env.rx _ _
    (encHolds_of_sealed hfits.holds hsealed)
  rw [h3] at hx1
  cases hx1
  have hhold : macText env.H env.rx f.metadata.partialEncryption f.metadata.macOnlyEncrypted (tomlReread m) =
      macText env.H env.rx f.metadata.partialEncryption f.metadata.macOnlyEncrypted m →
      Holding env tomlRep f' key (tomlReread m) (tomlReread m') := by
    intro hmac
    refine ⟨h.key_length, ?_, ?_, ?_, ?_, h3, ?_, ?_, ?_, ?_⟩ <;> rw [h2]
    · exact h.units
    · exact h.ids
    · exact hfits
    · exact hx2
    · exact hsealed
    · rw [hmac]; exact h.mac
    · exact h.mac_type
    · exact h.mac_sized
  have hdec : ∀ g : DecFile Format.toml, f'.decrypt Format.toml env = .ok g →
      macText env.H env.rx f.metadata.partialEncryption f.metadata.macOnlyEncrypted (tomlReread m) =
      macText env.H env.rx f.metadata.partialEncryption f.metadata.macOnlyEncrypted m := by
    intro g hg
    obtain ⟨key', m1', m1, hk1, hk2, hk3, hk4, hk5, hk6⟩ := decrypt_ok_iff.1 hg
    rw [h2] at hk1 hk2 hk4
    have hkey : key' = key := retrieve_of_allWrap he h.key_length h.units hk1
    subst hkey
    rw [hx2] at hk2
    cases hk2
    rw [show RMap.decrypt (env.decEnv key') (tomlReread m') = .ok (tomlReread m) from
      decrypt_of_sealed he.cipher hfits.canonical hsealed] at hk3
    cases hk3
    rw [he.cipher.decrypt_encrypt h.mac, Env.macOf_eq he.hasher] at hk4
    injection hk4 with hk4
    exact hk4.symm
  refine ⟨f', h1, ⟨fun ⟨g, hg⟩ => hdec g hg, fun hmac => ?_⟩, fun g hg => ?_⟩
  · obtain ⟨g, hg, _⟩ := decrypt_of_holding he Format.toml_lawful (hhold hmac) hfits.holds (d := d) (by rw [h2]; exact hr)
    exact ⟨g, hg⟩
  · exact (of_decrypt_holding he Format.toml_lawful (hhold (hdec g hg)) hfits.holds hg).2.1

/-- **C31, positive part.** A map without the key "sops" whose values come first at every level
decrypts to itself after the file was written and read; the file read is the file written. -/
theorem C31_values_first {O : DocOps} (hO : DocLaws O) {env : Env} (he : EnvLaws env) {T : TextOps .toml}
    {ok : DocFormat.toml.F.Map → Prop} (hT : TextLaws T ok) {f : EncFile DocFormat.toml.F} {key : Bytes} {m : RMap Value}
    {m' : RMap EncLeaf} (h : Holding env tomlRep f key m m') (hn : (topKeys m).Nodup) (hs : c!"sops" ∉ topKeys m)
    (hv : ValuesFirstMap m) (hw : EncWritable O env.C f.metadata) (hok : ok (f.toDoc .toml env.C))
    {d : Bytes} (hr : env.retrieveDataKey f.metadata = .ok d) :
    ∃ (f' : EncFile Format.toml) (g : DecFile Format.toml),
      EncFile.ofText T O env.C (EncFile.toText T env.C f) = some f' ∧
      f'.decrypt Format.toml env = .ok g ∧ Plaintext env g m := by
  obtain ⟨f', h1, h2, h3⟩ := C31_reread_iff hO he hT h hn hw hok hr
  have hm : tomlReread m = m := by
    unfold tomlReread
    rw [filter_ne_self hs]
    exact tomlMapOrder_eq hv
  rw [hm] at h2 h3
  obtain ⟨g, hg⟩ := h2.2 rfl
  exact ⟨f', g, h1, hg, h3 g hg⟩

/-- **C31, negative part.** If the bytes covered by the MAC are others in the order of the
text, the file that is written and read does not decrypt, unless the two collide under the
hash function. -/
theorem C31_reordered {O : DocOps} (hO : DocLaws O) {env : Env} (he : EnvLaws env) {T : TextOps .toml}
    {ok : DocFormat.toml.F.Map → Prop} (hT : TextLaws T ok) {f : EncFile DocFormat.toml.F} {key : Bytes} {m : RMap Value}
    {m' : RMap EncLeaf} (h : Holding env tomlRep f key m m') (hn : (topKeys m).Nodup)
    (hw : EncWritable O env.C f.metadata) (hok : ok (f.toDoc .toml env.C))
    {d : Bytes} (hr : env.retrieveDataKey f.metadata = .ok d)
    (hne : macInput env.rx f.metadata.partialEncryption (f.metadata.macOnlyEncrypted.getD false) (tomlReread m) ≠
      macInput env.rx f.metadata.partialEncryption (f.metadata.macOnlyEncrypted.getD false) m) :
    (∃ f' : EncFile Format.toml, EncFile.ofText T O env.C (EncFile.toText T env.C f) = some f' ∧
      ∀ g : DecFile Format.toml, f'.decrypt Format.toml env ≠ .ok g) ∨
    ∃ a b, Collide env.H a b := by
  obtain ⟨f', h1, h2, h3⟩ := C31_reread_iff hO he hT h hn hw hok hr
  by_cases hmac : macText env.H env.rx f.metadata.partialEncryption f.metadata.macOnlyEncrypted (tomlReread m) =
      macText env.H env.rx f.metadata.partialEncryption f.metadata.macOnlyEncrypted m
  · exact .inr ⟨_, _, hne, hex_injective (utf8_injective hmac)⟩
  · exact .inl ⟨f', h1, fun g hg => hmac (h2.1 ⟨g, hg⟩)⟩

/-- A TOML document with a value after a table. -/
def lateBuilder : Builder Format.toml where
  map := [(c!"t", .table [(c!"a", .str c!"x")]), (c!"b", .str c!"y")]
  partialEncryption := none
  macOnlyEncrypted := none
  ageKeyIds := [c!"pk1"]
  kmsKeyIds := []

/-- **C31, negative.** A document whose values do not come first is encrypted without an error,
and what is read from the text of the file is not accepted: the MAC does not match. -/
theorem C31_mac_mismatch : ∃ (f : EncFile DocFormat.toml.F) (j : Nat), lateBuilder.encrypt Toy.env 0 = .ok (f, j) ∧
    ∀ T : TextOps .toml, TextLaws T (· = f.toDoc .toml Toy.env.C) → ∃ f' : EncFile Format.toml,
      EncFile.ofText T Toy.docOps Toy.env.C (EncFile.toText T Toy.env.C f) = some f' ∧
      ∃ computed stored, f'.decrypt Format.toml Toy.env = .error (.macMismatch computed stored) := by
  have hc : (match lateBuilder.encrypt Toy.env 0 with
      | .error _ => false
      | .ok (f, _) =>
        match EncFile.ofDoc .toml Toy.docOps Toy.env.C (DocFormat.toml.order (EncFile.toDoc .toml Toy.env.C f)) with
        | none => false
        | some f' => match EncFile.decrypt (F := Format.toml) Format.toml Toy.env f' with
          | .error (.macMismatch _ _) => true
          | _ => false) = true := by decide +kernel
  split at hc
  · cases hc
  · rename_i f j h
    split at hc
    · cases hc
    · rename_i f' h'
      refine ⟨f, j, h, fun T hT => ⟨f', (ofText_toText hT rfl).trans h', ?_⟩⟩
      split at hc
      · rename_i hd; exact ⟨_, _, hd⟩
      · cases hc

/-- A TOML document with the key "sops", with the MAC over the encrypted values only. -/
def lostBuilder : Builder Format.toml where
  map := [(c!"pw_s", .str c!"y"), (c!"sops", .table [(c!"a", .str c!"x")])]
  partialEncryption := some (.encryptedSuffix c!"_s")
  macOnlyEncrypted := some true
  ageKeyIds := [c!"pk1"]
  kmsKeyIds := []

/-- **C44, negative.** In TOML the metadata replaces an entry "sops" of the document: here the
file is written, read and decrypted without an error, and the entry is gone. -/
theorem C44_toml_sops_lost : ∃ (f : EncFile DocFormat.toml.F) (j : Nat), lostBuilder.encrypt Toy.env 0 = .ok (f, j) ∧
    ∀ T : TextOps .toml, TextLaws T (· = f.toDoc .toml Toy.env.C) → ∃ (f' : EncFile Format.toml) (g : DecFile Format.toml),
      EncFile.ofText T Toy.docOps Toy.env.C (EncFile.toText T Toy.env.C f) = some f' ∧
      f'.decrypt Format.toml Toy.env = .ok g ∧
      Format.toml.toInternal g.map = .ok [(c!"pw_s", .leaf (.string c!"y"))] := by
  have hc : (match lostBuilder.encrypt Toy.env 0 with
      | .error _ => false
      | .ok (f, _) =>
        match EncFile.ofDoc .toml Toy.docOps Toy.env.C (DocFormat.toml.order (EncFile.toDoc .toml Toy.env.C f)) with
        | none => false
        | some f' => match EncFile.decrypt (F := Format.toml) Format.toml Toy.env f' with
          | .error _ => false
          | .ok g => match Format.toml.toInternal g.map with
            | .ok [(k, .leaf (.string v))] => k == c!"pw_s" && v == c!"y"
            | _ => false) = true := by decide +kernel
  split at hc
  · cases hc
  · rename_i f j h
    split at hc
    · cases hc
    · rename_i f' h'
      split at hc
      · cases hc
      · rename_i g hg
        refine ⟨f, j, h, fun T hT => ⟨f', g, (ofText_toText hT rfl).trans h', hg, ?_⟩⟩
        split at hc
        · rename_i k v hm
          simp only [Bool.and_eq_true, beq_iff_eq] at hc
          rw [hm, hc.1, hc.2]
        · cases hc

/-- A TOML document whose values come first. -/
def firstBuilder : Builder Format.toml where
  map := [(c!"b", .str c!"y"), (c!"t", .table [(c!"a", .str c!"x")])]
  partialEncryption := none
  macOnlyEncrypted := none
  ageKeyIds := [c!"pk1"]
  kmsKeyIds := []

example : ∃ (f : EncFile DocFormat.toml.F) (j : Nat), firstBuilder.encrypt Toy.env 0 = .ok (f, j) ∧
    ∀ T : TextOps .toml, TextLaws T (· = f.toDoc .toml Toy.env.C) → ∃ (f' : EncFile Format.toml) (g : DecFile Format.toml),
      EncFile.ofText T Toy.docOps Toy.env.C (EncFile.toText T Toy.env.C f) = some f' ∧
      f'.decrypt Format.toml Toy.env = .ok g ∧
      Plaintext Toy.env g [(c!"b", .leaf (.string c!"y")), (c!"t", .map [(c!"a", .leaf (.string c!"x"))])] := by
  have hc : (match firstBuilder.encrypt Toy.env 0 with
      | .error _ => false | .ok (_, _) => true) = true := by decide +kernel
  split at hc
  · cases hc
  · rename_i f j h
    have hl : leaves ([(c!"b", .leaf (.string c!"y")), (c!"t", .map [(c!"a", .leaf (.string c!"x"))])] : RMap Value) =
      [([c!"b"], .string c!"y"), ([c!"t", c!"a"], .string c!"x")] := rfl
    have hfits : Fits Toy.env.fl tomlRep none
        [(c!"b", .leaf (.string c!"y")), (c!"t", .map [(c!"a", .leaf (.string c!"x"))])] := by
      refine ⟨?_, ?_, fun h => absurd rfl h⟩
      · unfold Canonical; rw [hl]; intro pv hp
        simp only [List.mem_cons, List.not_mem_nil, or_false] at hp
        rcases hp with rfl | rfl <;> trivial
      · unfold Holds; rw [hl]; intro pv hp
        simp only [List.mem_cons, List.not_mem_nil, or_false] at hp
        rcases hp with rfl | rfl <;> first | trivial | (show _ ≠ _; decide) | decide
    obtain ⟨_, _, _, hh, _⟩ := holding_of_builder (b := firstBuilder) Toy.env_laws Format.toml_lawful rfl hfits h
    have hw := C43_created (O := Toy.docOps) (b := firstBuilder) Toy.env_laws Toy.env_clock Format.toml_lawful rfl hfits
      (fun _ _ => rfl) (fun _ h => nomatch h) (fun _ h => by cases h) h
    have hr := retrieve_of_identity (k := c!"k1") (ks := [c!"k1"]) Toy.env_laws hh.key_length hh.units rfl (.head _) (by
      obtain ⟨_, _, _, im, _, _, _, h3, _, _, h6⟩ := Builder.encrypt_ok h
      rw [h6, (intoMetadata_ok h3).2.2.1]; decide)
    refine ⟨f, j, h, fun T hT => ?_⟩
    exact C31_values_first Toy.docOps_laws Toy.env_laws hT hh (by decide) (by decide)
      (by simp [ValuesFirstMap, ValuesFirst, isSection]) hw rfl hr

end Rops.Props
