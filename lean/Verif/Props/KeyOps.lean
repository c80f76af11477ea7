import Verif.Lemmas.FileOps
import Verif.Lemmas.Content
import Verif.Spec.ToyFile
import Verif.Props.Keys
/-!
# Properties of adding and removing keys and of replacing the map

C21, C23, C24, C25 and C27.
-/

namespace Rops.Props
open Rops Spec

/-! ## C21 -/

/-- C21. Adding keys to an encrypted or decrypted file changes only the units of that
integration: each listed key id has one unit that wraps the data key of the file, the other
units stay as they are and no others appear. -/
theorem C21_add_keys {env : Env} (he : EnvLaws env) {F : Format} {M : Type} (f f' : File F M) {key : Bytes}
    (hkey : key.length = dataKeySize) (hw : AllWrap env.A env.K f.metadata.integration key)
    (hids : ∀ k, (keyIds f.metadata.integration k).Nodup) (k : Kind) (ids : List k.Id) (i j : Nat)
    (h : f.addKeys env k ids i = (.ok (), f', j)) :
    f'.map = f.map ∧ f'.metadata = { f.metadata with integration := f'.metadata.integration } ∧
    keyIds f'.metadata.integration k = addIds (keyIds f.metadata.integration k) ids ∧
    (∀ id ∈ ids, ∃ u ∈ f'.metadata.integration.units k, u.keyId = id ∧ Wraps env.A env.K k u key) ∧
    (∀ u, u.keyId ∉ ids → (u ∈ f'.metadata.integration.units k ↔ u ∈ f.metadata.integration.units k)) ∧
    (∀ k', k' ≠ k → f'.metadata.integration.units k' = f.metadata.integration.units k') ∧
    AllWrap env.A env.K f'.metadata.integration key ∧ (∀ k', (keyIds f'.metadata.integration k').Nodup) := by
  obtain ⟨d, im, h1, h2, rfl⟩ := File.addKeys_ok h
  have hd : d = key := retrieve_of_allWrap he hkey hw h1
  subst hd
  obtain ⟨done, _, hdone, h4, h5, h6, h7, _⟩ := addKeys_spec env.toKeyEnv k d ids _ i (hids k) h2
  rw [hdone rfl] at h5 h6 h7
  obtain ⟨hw', hn', _⟩ := allWrap_addKeys h2 hids hw
  refine ⟨rfl, rfl, h5, fun id hid => ?_, fun u hu => ⟨fun hm => ?_, fun hm => h7 u hm hu⟩, h4, hw', hn'⟩
  · have : id ∈ keyIds im k := by rw [h5, mem_addIds]; exact .inr hid
    obtain ⟨u, hu, rfl⟩ := List.mem_map.1 this
    exact ⟨u, hu, rfl, hw' k u hu⟩
  · rcases h6 u hm with h | h
    · exact h.1
    · exact absurd h.1 hu

/-- C21. The file with the added keys decrypts to the same map, for every process that finds
a data key at all. -/
theorem C21_same_map {env : Env} (he : EnvLaws env) {F Fo : Format} {rep rep' : Value → Prop}
    (hFo : Format.Lawful Fo rep') {f f' : EncFile F} {key : Bytes} {m : RMap Value} {m' : RMap EncLeaf}
    (h : Holding env rep f key m m') (hm : Holds rep' m) (k : Kind) (ids : List k.Id) (i j : Nat)
    (ha : f.addKeys env k ids i = (.ok (), f', j)) (host : Host) (d : Bytes)
    (hr : (env.withHost host).retrieveDataKey f'.metadata = .ok d) :
    ∃ g, f'.decrypt Fo (env.withHost host) = .ok g ∧ Fo.toInternal g.map = .ok m := by
  obtain ⟨hh, _⟩ := holding_addKeys he h ha
  obtain ⟨g, h1, h2, _⟩ := decrypt_of_holding (he.withHost host) hFo (hh.withHost host) hm hr
  exact ⟨g, h1, h2.read⟩

/-- C21. Adding an age recipient grants access: a process with the identity of an added
recipient decrypts the file, and so does everyone with the identity of an earlier one. -/
theorem C21_grants_access {env : Env} (he : EnvLaws env) {F Fo : Format} {rep rep' : Value → Prop}
    (hFo : Format.Lawful Fo rep') {f f' : EncFile F} {key : Bytes} {m : RMap Value} {m' : RMap EncLeaf}
    (h : Holding env rep f key m m') (hm : Holds rep' m) (ids : List (Kind.Id .age)) (i j : Nat)
    (ha : f.addKeys env .age ids i = (.ok (), f', j)) (host : Host) (ks : List env.A.Identity)
    (hks : retrievePrivateKeys (Age.parsePrivateKey env.A) host c!"age" = .ok ks) (k : env.A.Identity) (hk : k ∈ ks)
    (hid : env.A.toPublic k ∈ ids ∨ env.A.toPublic k ∈ keyIds f.metadata.integration .age) :
    ∃ g, f'.decrypt Fo (env.withHost host) = .ok g ∧ Fo.toInternal g.map = .ok m := by
  obtain ⟨hh, _⟩ := holding_addKeys he h ha
  have hk' : env.A.toPublic k ∈ keyIds f'.metadata.integration .age := by
    rw [(C21_add_keys he f f' h.key_length h.units h.ids .age ids i j ha).2.2.1, mem_addIds]
    exact hid.symm
  exact C21_same_map he hFo h hm .age ids i j ha host key
    (retrieve_of_identity (he.withHost host) hh.key_length (hh.withHost host).units hks hk hk')

/-- C21. A failed addition does not harm the file either: whatever units were added before
the failure, the file still decrypts to the same map for everyone who finds a data key. -/
theorem C21_failed_add {env : Env} (he : EnvLaws env) {F Fo : Format} {rep rep' : Value → Prop}
    (hFo : Format.Lawful Fo rep') {f f' : EncFile F} {key : Bytes} {m : RMap Value} {m' : RMap EncLeaf}
    (h : Holding env rep f key m m') (hm : Holds rep' m) (k : Kind) (ids : List k.Id) (i j : Nat) (e : AddKeyError)
    (ha : f.addKeys env k ids i = (.error e, f', j)) (host : Host) (d : Bytes)
    (hr : (env.withHost host).retrieveDataKey f'.metadata = .ok d) :
    ∃ g, f'.decrypt Fo (env.withHost host) = .ok g ∧ Fo.toInternal g.map = .ok m := by
  have hh : Holding env rep f' key m m' := by
    unfold File.addKeys at ha
    cases h1 : env.retrieveDataKey f.metadata with
    | error e => rw [h1] at ha; cases ha; exact h
    | ok d =>
      cases retrieve_of_allWrap he h.key_length h.units h1
      rw [h1] at ha
      simp only at ha
      cases h2 : env.addKeys k key ids f.metadata.integration i with
      | mk res r =>
        obtain ⟨im, j'⟩ := r
        obtain ⟨hw, hn, _⟩ := allWrap_addKeys h2 h.ids h.units
        rw [h2] at ha
        cases res with
        | ok x => simp at ha
        | error e' =>
          cases ha
          exact ⟨h.key_length, hw, hn, h.fits, h.read, h.written, h.sealed, h.mac, h.mac_type, h.mac_sized⟩
  obtain ⟨g, h1, h2, _⟩ := decrypt_of_holding (he.withHost host) hFo (hh.withHost host) hm hr
  exact ⟨g, h1, h2.read⟩

/-- A file of the builder and the addition of two recipients, one already present: the new
recipient decrypts it. -/
example : ∃ (f f' : EncFile Format.json) (j j' : Nat), Toy.builder.encrypt Toy.env 0 = .ok (f, j) ∧
    f.addKeys Toy.env .age [c!"pk3", c!"pk1"] j = (.ok (), f', j') ∧
    keyIds f'.metadata.integration .age = [c!"pk1", c!"pk2", c!"pk3"] ∧
    ∃ g, f'.decrypt Format.json (Toy.env.withHost (Toy.host (.value c!"k3") .notPresent)) = .ok g ∧
      Format.json.toInternal g.map = .ok Toy.docMap := by
  have hc : (match Toy.builder.encrypt Toy.env 0 with
    | .error _ => false
    | .ok (f, j) => match f.addKeys Toy.env .age [c!"pk3", c!"pk1"] j with
      | (.ok (), f', _) => keyIds f'.metadata.integration .age == [c!"pk1", c!"pk2", c!"pk3"]
      | (.error _, _, _) => false) = true := by decide +kernel
  split at hc
  · cases hc
  rename_i f j hf
  split at hc
  · rename_i f' j' ha
    obtain ⟨m', _, _, hh, _⟩ := holding_of_builder Toy.env_laws Format.json_lawful Toy.doc_read Toy.docMap_fits hf
    exact ⟨f, f', j, j', hf, ha, by simpa using hc,
      C21_grants_access Toy.env_laws Format.json_lawful hh Toy.docMap_fits.holds _ j j' ha _ [c!"k3"] rfl c!"k3" (.head _)
        (.inl (by decide))⟩
  · cases hc

/-! ## C23 -/

/-- C23. A removal that returns a unit: the unit of the key id is gone, everything but the
units is as before, and every remaining unit wraps one new data key. -/
theorem C23_rotation {env : Env} {F : Format} (g g' : DecFile F) (hids : ∀ k, (keyIds g.metadata.integration k).Nodup)
    (k : Kind) (id : k.Id) (u : IUnit k) (i j : Nat) (h : g.removeKey env k id i = (.ok (some u), g', j)) :
    u ∈ g.metadata.integration.units k ∧ u.keyId = id ∧
    g'.map = g.map ∧ g'.metadata = { g.metadata with integration := g'.metadata.integration } ∧
    keyIds g'.metadata.integration k = (keyIds g.metadata.integration k).erase id ∧
    id ∉ keyIds g'.metadata.integration k ∧
    (∀ k', k' ≠ k → keyIds g'.metadata.integration k' = keyIds g.metadata.integration k') ∧
    AllWrap env.A env.K g'.metadata.integration (env.newKey i) ∧
    (∀ k', (keyIds g'.metadata.integration k').Nodup) ∧ i < j := by
  unfold DecFile.removeKey at h
  cases hr : env.removeKey k id g.metadata.integration i with
  | mk res r =>
    obtain ⟨im, j'⟩ := r
    rw [hr] at h
    simp only [Prod.mk.injEq] at h
    obtain ⟨rfl, rfl, rfl⟩ := h
    obtain ⟨h1, h2, h3, h4, h5, h6⟩ := removeKey_some hr
    refine ⟨h2, h1, rfl, rfl, h3, ?_, h4, h5, fun k' => ?_, h6⟩
    · simp only [h3]
      exact List.Nodup.not_mem_erase (hids k)
    · by_cases hk : k' = k
      · subst hk
        simp only [h3]
        exact (hids k').erase id
      · simp only [h4 k' hk]
        exact hids k'

/-- A present key id is removed if the remaining units can be wrapped. For age units that is
a matter of the recipients only. -/
theorem updateUnits_ok {env : KeyEnv} {k : Kind} {d : Bytes} (us : Units k)
    (h : ∀ u ∈ us, ∀ i, ∃ t, env.encryptDataKey k u.keyId d i = .ok t) (i : Nat) :
    ∃ us' j, env.updateUnits k d us i = (.ok (), us', j) := by
  induction us generalizing i with
  | nil => exact ⟨_, _, rfl⟩
  | cons u r ih =>
    obtain ⟨t, ht⟩ := h u (by simp) i
    obtain ⟨r', j, hr⟩ := ih (fun u hu => h u (by simp [hu])) (i + 1)
    simp only [KeyEnv.updateUnits, ht, hr]
    exact ⟨_, _, rfl⟩

/-- C23. A present key id is removed whenever the new data key can be wrapped for the others. -/
theorem C23_removes {env : Env} {F : Format} (g : DecFile F) (k : Kind) (id : k.Id)
    (hid : id ∈ keyIds g.metadata.integration k) (i : Nat)
    (hw : ∀ k', ∀ u ∈ g.metadata.integration.units k', ∀ n, ∃ t,
      env.encryptDataKey k' u.keyId (env.newKey i) n = .ok t) :
    ∃ u g' j, g.removeKey env k id i = (.ok (some u), g', j) := by
  unfold DecFile.removeKey KeyEnv.removeKey
  cases hr : (g.metadata.integration.units k).remove id with
  | none => exact absurd hid (Units.remove_eq_none.1 hr)
  | some p =>
    obtain ⟨ru, rest⟩ := p
    obtain ⟨a, b, h1, h2, _⟩ := Units.remove_eq_some hr
    have hw' : ∀ k', ∀ u ∈ (g.metadata.integration.setUnits k rest).units k', ∀ n, ∃ t,
        env.encryptDataKey k' u.keyId (env.newKey i) n = .ok t := by
      intro k' u hu
      by_cases hk : k' = k
      · subst hk
        rw [IntegrationMetadata.units_setUnits, h2] at hu
        refine hw k' u ?_
        rw [h1]
        simp only [List.mem_append, List.mem_cons] at hu ⊢
        rcases hu with hu | hu
        · exact .inl hu
        · exact .inr (.inr hu)
      · rw [IntegrationMetadata.units_setUnits_ne _ hk] at hu
        exact hw k' u hu
    simp only
    obtain ⟨us, j, hu⟩ := updateUnits_ok (env := env.toKeyEnv) (k := .age) _ (hw' .age) (i + 1)
    simp only [IntegrationMetadata.units] at hu
    rw [hu]
    simp only
    obtain ⟨us', j', hu'⟩ := updateUnits_ok (env := env.toKeyEnv) (k := .kms) _ (hw' .kms) j
    simp only [IntegrationMetadata.units] at hu'
    rw [hu']
    exact ⟨_, _, _, rfl⟩

/-- C23. The file encrypted after a removal holds the same map under the new data key only:
all units, all values and the MAC. -/
theorem C23_reencrypted {env : Env} (he : EnvLaws env) {F Fo : Format} {rep : Value → Prop} (hFo : Format.Lawful Fo rep)
    {g g' : DecFile F} {m : RMap Value} (hg : Plaintext env g m)
    (hfits : Fits env.fl rep g.metadata.partialEncryption m) (hids : ∀ k, (keyIds g.metadata.integration k).Nodup)
    (k : Kind) (id : k.Id) (u : IUnit k) (i j : Nat) (h : g.removeKey env k id i = (.ok (some u), g', j))
    (host : Host) (i' j' : Nat) (f : EncFile Fo) (h' : g'.encrypt Fo (env.withHost host) i' = .ok (f, j')) :
    (∃ m', Holding env rep f (env.newKey i) m m') ∧ id ∉ keyIds f.metadata.integration k ∧
    f.metadata.lastModified = g.metadata.lastModified ∧
    f.metadata.partialEncryption = g.metadata.partialEncryption ∧
    f.metadata.macOnlyEncrypted = g.metadata.macOnlyEncrypted := by
  obtain ⟨_, _, h3, h4, h5, h6, h7, h8, h9, _⟩ := C23_rotation g g' hids k id u i j h
  have e1 : g'.metadata.partialEncryption = g.metadata.partialEncryption := by rw [h4]
  have e2 : g'.metadata.macOnlyEncrypted = g.metadata.macOnlyEncrypted := by rw [h4]
  have e3 : g'.metadata.lastModified = g.metadata.lastModified := by rw [h4]
  have e4 : g'.metadata.mac = g.metadata.mac := by rw [h4]
  unfold DecFile.encrypt at h'
  cases hr : (env.withHost host).retrieveDataKey g'.metadata with
  | error e => rw [hr] at h'; cases h'
  | ok d =>
    rw [hr] at h'
    have hd : d = env.newKey i := retrieve_of_allWrap (he.withHost host) (he.key_length i) h8 hr
    subst hd
    obtain ⟨m', i1, hh, hmd, _⟩ := holding_of_encryptWith (he.withHost host) hFo (g := g') (m := m)
      ⟨by rw [h3]; exact hg.read, by rw [e1, e2, e4]; exact hg.mac⟩ (by rw [e1]; exact hfits) (he.key_length i) h8 h9
      (sm := none) (sc := none) (fun t ht => nomatch ht) (fun s hs => nomatch hs) h'
    refine ⟨⟨m', hh.ofHost⟩, ?_, ?_, ?_, ?_⟩
    · rw [hmd]; exact h6
    · rw [hmd]; exact e3
    · rw [hmd]; exact e1
    · rw [hmd]; exact e2

/-- C23. A process none of whose private keys has a unit cannot decrypt the file. With
`C23_reencrypted` this is the process with the removed key. -/
theorem C23_locked_out {env : Env} {F Fo : Format} {rep : Value → Prop}
    {f : EncFile F} {key : Bytes} {m : RMap Value} {m' : RMap EncLeaf} (h : Holding env rep f key m m') (host : Host)
    (ks : List env.A.Identity) (hks : retrievePrivateKeys (Age.parsePrivateKey env.A) host c!"age" = .ok ks)
    (ps : List AwsPrivateKey) (hps : retrievePrivateKeys AwsPrivateKey.parse host c!"aws_kms" = .ok ps)
    (hage : ∀ k ∈ ks, env.A.toPublic k ∉ keyIds f.metadata.integration .age)
    (hkms : ∀ p ∈ ps, ∀ id ∈ keyIds f.metadata.integration .kms, p.profile ≠ id.profile) :
    f.decrypt Fo (env.withHost host) = .error (.metadata (.retrieval .missingDataKey)) := by
  have hnone : (env.withHost host).decryptAny f.metadata.integration = .ok none := by
    rw [C26_none_usable]
    intro r hr
    simp only [tries, List.mem_append, List.mem_map] at hr
    rcases hr with ⟨u, hu, rfl⟩ | ⟨u, hu, rfl⟩
    · refine (C26_age_skipped (env.withHost host).toKeyEnv (ks := ks) hks u).2 fun k hk he => hage k hk ?_
      rw [show env.A.toPublic k = u.keyId from he]
      exact List.mem_map_of_mem hu
    · refine (C26_kms_skipped (env.withHost host).toKeyEnv (ks := ps) hps u).2
        ⟨?_, fun p hp => hkms p hp _ (List.mem_map_of_mem hu)⟩
      obtain ⟨_, _, b, _, hb⟩ := h.units .kms u hu
      rw [hb, Base64.decode_encode]
      simp
  unfold EncFile.decrypt Env.decryptMetadata Env.retrieveDataKey
  rw [hnone]

/-- C23. The process with the removed age identity can no longer decrypt. -/
theorem C23_removed_locked_out {env : Env} (he : EnvLaws env) {F Fo Fo' : Format} {rep : Value → Prop}
    (hFo : Format.Lawful Fo rep) {g g' : DecFile F} {m : RMap Value} (hg : Plaintext env g m)
    (hfits : Fits env.fl rep g.metadata.partialEncryption m) (hids : ∀ k, (keyIds g.metadata.integration k).Nodup)
    (id : Kind.Id .age) (u : IUnit .age) (i j : Nat) (h : g.removeKey env .age id i = (.ok (some u), g', j))
    (host : Host) (i' j' : Nat) (f : EncFile Fo) (h' : g'.encrypt Fo (env.withHost host) i' = .ok (f, j'))
    (host' : Host) (k : env.A.Identity) (hk : env.A.toPublic k = id)
    (hks : retrievePrivateKeys (Age.parsePrivateKey env.A) host' c!"age" = .ok [k])
    (hps : retrievePrivateKeys AwsPrivateKey.parse host' c!"aws_kms" = .ok []) :
    f.decrypt Fo' (env.withHost host') = .error (.metadata (.retrieval .missingDataKey)) := by
  obtain ⟨⟨m', hh⟩, hid, _⟩ := C23_reencrypted he hFo hg hfits hids .age id u i j h host i' j' f h'
  refine C23_locked_out hh host' [k] hks [] hps (fun x hx => ?_) (fun p hp => nomatch hp)
  rw [List.mem_singleton] at hx
  subst hx
  rw [hk]
  exact hid

/-- Removal of a recipient of a builder's file. -/
example : ∃ f j g g' u j' f' j'', Toy.builder.encrypt Toy.env 0 = .ok (f, j) ∧
    f.decrypt Format.json Toy.env = .ok g ∧ g.removeKey Toy.env .age c!"pk2" j = (.ok (some u), g', j') ∧
    g'.encrypt Format.json Toy.env j' = .ok (f', j'') ∧ Toy.env.newKey j ≠ Toy.env.newKey 0 ∧
    (∃ m', Holding Toy.env jsonRep f' (Toy.env.newKey j) Toy.docMap m') ∧
    f'.decrypt Format.json (Toy.env.withHost (Toy.host (.value c!"k2") .notPresent)) =
      .error (.metadata (.retrieval .missingDataKey)) := by
  have hc : (match Toy.builder.encrypt Toy.env 0 with
    | .error _ => false
    | .ok (f, j) => match f.decrypt Format.json Toy.env with
      | .error _ => false
      | .ok g => match g.removeKey Toy.env .age c!"pk2" j with
        | (.ok (some _), g', j') => (match g'.encrypt Format.json Toy.env j' with
          | .error _ => false
          | .ok _ => Toy.env.newKey j != Toy.env.newKey 0)
        | _ => false) = true := by decide +kernel
  split at hc
  · cases hc
  rename_i f j hf
  split at hc
  · cases hc
  rename_i g hg
  split at hc
  · rename_i u g' j' hr
    split at hc
    · cases hc
    · rename_i p he
      obtain ⟨f', j''⟩ := p
      obtain ⟨m', _, _, hh, _⟩ := holding_of_builder Toy.env_laws Format.json_lawful Toy.doc_read Toy.docMap_fits hf
      obtain ⟨_, hp, hmd⟩ := of_decrypt_holding Toy.env_laws Format.json_lawful hh Toy.docMap_fits.holds hg
      have e1 : g.metadata.partialEncryption = f.metadata.partialEncryption := by rw [hmd]; rfl
      have e2 : g.metadata.integration = f.metadata.integration := by rw [hmd]; rfl
      have hfits : Fits Toy.env.fl jsonRep g.metadata.partialEncryption Toy.docMap := by rw [e1]; exact hh.fits
      have hids : ∀ k, (keyIds g.metadata.integration k).Nodup := by rw [e2]; exact hh.ids
      refine ⟨f, j, g, g', u, j', f', j'', hf, hg, hr, he, by simpa using hc, ?_, ?_⟩
      · exact (C23_reencrypted Toy.env_laws Format.json_lawful hp hfits hids .age c!"pk2" u j j' hr Toy.env.host j' j'' f'
          he).1
      · exact C23_removed_locked_out Toy.env_laws Format.json_lawful hp hfits hids c!"pk2" u j j' hr Toy.env.host j' j'' f'
          he _ c!"k2" rfl rfl rfl
  · cases hc

/-! ### A failed removal -/

/-- The ARN of the examples. -/
def sampleArn : AwsKeyId := ⟨c!"work", some c!"aws", c!"kms", c!"eu-1", some c!"123", some c!"key", c!"ab"⟩

/-- A builder with two age recipients and a KMS key. -/
def mixedBuilder : Builder Format.json :=
  { Toy.builder with ageKeyIds := [c!"pk1", c!"pk2"], kmsKeyIds := [sampleArn] }

/-- The process of someone with AWS credentials. -/
def kmsHost : Host := Toy.host (.value c!"k1") (.value c!"work.a.b")

/-- C23. A removal that fails part way leaves a file in memory whose units wrap different
data keys: the age units the new one, the KMS units the old one. Here the process has no
AWS credentials. -/
theorem C23_failed_removal_mixes_keys : ∃ (f : EncFile Format.json) (g g' : DecFile Format.json) (j j' : Nat)
    (e : IntegrationError), mixedBuilder.encrypt (Toy.env.withHost kmsHost) 0 = .ok (f, j) ∧
    f.decrypt Format.json Toy.env = .ok g ∧ g.removeKey Toy.env .age c!"pk2" j = (.error e, g', j') ∧
    keyIds g'.metadata.integration .age = [c!"pk1"] ∧ keyIds g'.metadata.integration .kms = [sampleArn] ∧
    Toy.env.retrieveDataKey g'.metadata = .ok (Toy.env.newKey j) ∧
    (Toy.env.withHost (Toy.host .notPresent (.value c!"work.a.b"))).retrieveDataKey g'.metadata =
      .ok (Toy.env.newKey 0) ∧
    Toy.env.newKey j ≠ Toy.env.newKey 0 := by
  have hc : (match mixedBuilder.encrypt (Toy.env.withHost kmsHost) 0 with
    | .error _ => false
    | .ok (f, j) => match f.decrypt Format.json Toy.env with
      | .error _ => false
      | .ok g => match g.removeKey Toy.env .age c!"pk2" j with
        | (.error _, g', _) => keyIds g'.metadata.integration .age == [c!"pk1"] &&
          keyIds g'.metadata.integration .kms == [sampleArn] &&
          decide (Toy.env.retrieveDataKey g'.metadata = .ok (Toy.env.newKey j)) &&
          decide ((Toy.env.withHost (Toy.host .notPresent (.value c!"work.a.b"))).retrieveDataKey g'.metadata =
            .ok (Toy.env.newKey 0)) &&
          Toy.env.newKey j != Toy.env.newKey 0
        | _ => false) = true := by decide +kernel
  split at hc
  · cases hc
  rename_i f j hf
  split at hc
  · cases hc
  rename_i g hg
  split at hc
  · rename_i e g' j' hr
    simp only [Bool.and_eq_true, beq_iff_eq, decide_eq_true_eq, bne_iff_ne] at hc
    obtain ⟨⟨⟨⟨h1, h2⟩, h3⟩, h4⟩, h5⟩ := hc
    exact ⟨f, g, g', j, j', e, hf, hg, hr, h1, h2, h3, h4, h5⟩
  · cases hc

/-! ## C24 -/

/-- C24. A removal finds nothing exactly when the key id has no unit, and then nothing has
changed and no data key was made. -/
theorem C24_absent_iff {env : Env} {F : Format} (g : DecFile F) (k : Kind) (id : k.Id) (i : Nat) :
    (∃ g' j, g.removeKey env k id i = (.ok none, g', j)) ↔ id ∉ keyIds g.metadata.integration k := by
  constructor
  · rintro ⟨g', j, h⟩
    unfold DecFile.removeKey at h
    cases hr : env.removeKey k id g.metadata.integration i with
    | mk res r =>
      obtain ⟨im, j'⟩ := r
      rw [hr] at h
      simp only [Prod.mk.injEq] at h
      obtain ⟨rfl, _, _⟩ := h
      exact (removeKey_none hr).1
  · intro h
    refine ⟨g, i, ?_⟩
    unfold DecFile.removeKey
    rw [removeKey_absent i h]

/-- C24. Removing an absent key id changes nothing. -/
theorem C24_absent_unchanged {env : Env} {F : Format} (g : DecFile F) (k : Kind) (id : k.Id) (i : Nat)
    (h : id ∉ keyIds g.metadata.integration k) : g.removeKey env k id i = (.ok none, g, i) := by
  unfold DecFile.removeKey
  rw [removeKey_absent i h]

example : c!"pk9" ∉ keyIds (⟨[], [⟨c!"pk1", none, []⟩]⟩ : IntegrationMetadata) .age := by decide

/-! ## C25 -/

/-- C25. Encrypting with parameters saved before a removal: the units of the file wrap the
new data key, its values and its MAC are encrypted under the old one. -/
theorem C25_stale_parameters {env : Env} (he : EnvLaws env) {F Fo : Format} {rep rep' : Value → Prop}
    (hF : Format.Lawful F rep) (hFo : Format.Lawful Fo rep') {f f' : EncFile F} {key : Bytes} {m : RMap Value}
    {m' : RMap EncLeaf} (h : Holding env rep f key m m') (hm : Holds rep' m) {g g' : DecFile Fo} {p : SavedParameters}
    (hd : f.decryptAndSave Fo env = .ok (g, p)) (k : Kind) (id : k.Id) (u : IUnit k) (i j : Nat)
    (hr : g.removeKey env k id i = (.ok (some u), g', j)) (i' j' : Nat)
    (hs : g'.encryptSaved F env p i' = .ok (f', j')) :
    p.dataKey = key ∧ AllWrap env.A env.K f'.metadata.integration (env.newKey i) ∧
    (∃ m1, F.encToInternal env.C env.rx (Resolved.ofConfig f'.metadata.partialEncryption) f'.map = .ok m1 ∧
      Sealed env.C env.rx key f'.metadata.partialEncryption m m1) ∧
    env.C.encrypt f'.metadata.mac.nonce key
      (macText env.H env.rx f'.metadata.partialEncryption f'.metadata.macOnlyEncrypted m)
      f'.metadata.lastModified.toBytes = some (f'.metadata.mac.data, f'.metadata.mac.tag) := by
  obtain ⟨_, hg, hmd, rfl⟩ := of_decryptAndSave_holding he hFo h hm hd
  have e4 : g.metadata.integration = f.metadata.integration := by rw [hmd]; rfl
  obtain ⟨_, _, h3, h4, _, _, _, h8, h9, _⟩ := C23_rotation g g' (by rw [e4]; exact h.ids) k id u i j hr
  have e1 : g'.metadata.partialEncryption = f.metadata.partialEncryption := by rw [h4, hmd]; rfl
  have e1' : g'.metadata.partialEncryption = g.metadata.partialEncryption := by rw [h4]
  have e2' : g'.metadata.macOnlyEncrypted = g.metadata.macOnlyEncrypted := by rw [h4]
  have e5 : g'.metadata.mac = g.metadata.mac := by rw [h4]
  obtain ⟨m0, m1, i1, q1, q2, q3, q4, q5⟩ := encryptWith_ok_iff.1 hs
  rw [h3, hg.read] at q1
  cases q1
  have e6 : f'.metadata.partialEncryption = g'.metadata.partialEncryption := by rw [q4]; rfl
  have e7 : f'.metadata.macOnlyEncrypted = g'.metadata.macOnlyEncrypted := by rw [q4]; rfl
  have e8 : f'.metadata.lastModified = g'.metadata.lastModified := by rw [q4]; rfl
  have e9 : f'.metadata.integration = g'.metadata.integration := by rw [q4]; rfl
  have hsealed := sealed_of_encrypt (env := env.encEnv key (some (savedAll (leaves m') (leaves m) []))) he.cipher
    he.nonce_length (sealed_saved_sized h.sealed) (by rw [e1]; exact h.fits.keys) q2
  refine ⟨rfl, by rw [e9]; exact h8, ⟨m1, ?_, ?_⟩, ?_⟩
  · obtain ⟨x, w1, w2⟩ := hF.enc_round_trip env.C he.cipher.name_no_comma env.rx f'.metadata.partialEncryption m1 (by
      refine encHolds_of_sealed h.fits.holds (key := key) ?_
      rw [e6]; exact hsealed)
    rw [q5] at w1
    cases w1
    exact w2
  · rw [e6]; exact hsealed
  · have := (Mac.encrypt_ok q3).1
    rw [e6, e7, e8, e1', e2', ← hg.mac, ← e5]
    exact this

/-- C25. Nobody who finds a data key can decrypt such a file if the cipher rejects the MAC
ciphertext under the new key. -/
theorem C25_unreadable {env : Env} (he : EnvLaws env) {F Fo : Format} {rep rep' : Value → Prop}
    (hF : Format.Lawful F rep) (hFo : Format.Lawful Fo rep') {f f' : EncFile F} {key : Bytes} {m : RMap Value}
    {m' : RMap EncLeaf} (h : Holding env rep f key m m') (hm : Holds rep' m) {g g' : DecFile Fo} {p : SavedParameters}
    (hd : f.decryptAndSave Fo env = .ok (g, p)) (k : Kind) (id : k.Id) (u : IUnit k) (i j : Nat)
    (hr : g.removeKey env k id i = (.ok (some u), g', j)) (i' j' : Nat)
    (hs : g'.encryptSaved F env p i' = .ok (f', j')) (hne : env.newKey i ≠ key)
    (hrej : ∀ n k1 k2 x a c t, k1 ≠ k2 → env.C.encrypt n k1 x a = some (c, t) → env.C.decrypt n k2 c a t = none)
    (host : Host) (Fo' : Format) (d : Bytes) (hret : (env.withHost host).retrieveDataKey f'.metadata = .ok d) :
    f'.decrypt Fo' (env.withHost host) = .error (.metadata .mac) := by
  obtain ⟨_, h2, _, h4⟩ := C25_stale_parameters he hF hFo h hm hd k id u i j hr i' j' hs
  have hd : d = env.newKey i := retrieve_of_allWrap (he.withHost host) (he.key_length i) h2 hret
  subst hd
  have := hrej _ _ _ _ _ _ _ hne.symm h4
  unfold EncFile.decrypt Env.decryptMetadata EncMac.decrypt
  rw [hret]
  simp only [show (env.withHost host).C = env.C from rfl, this]

/-- C25. Such a sequence: the owner of a remaining recipient can no longer read the file. -/
theorem C25_concrete : ∃ (f f' : EncFile Format.json) (g g' : DecFile Format.json) (p : SavedParameters)
    (u : IUnit .age) (j j' : Nat),
    Toy.builder.encrypt Toy.env 0 = .ok (f, j) ∧ f.decryptAndSave Format.json Toy.env = .ok (g, p) ∧
    g.removeKey Toy.env .age c!"pk2" j = (.ok (some u), g', j') ∧
    g'.encryptSaved Format.json Toy.env p j' = .ok (f', j') ∧
    Toy.env.retrieveDataKey f'.metadata = .ok (Toy.env.newKey j) ∧
    f'.decrypt Format.json Toy.env = .error (.metadata .mac) := by
  have hc : (match Toy.builder.encrypt Toy.env 0 with
    | .error _ => false
    | .ok (f, j) => match f.decryptAndSave Format.json Toy.env with
      | .error _ => false
      | .ok (g, p) => match g.removeKey Toy.env .age c!"pk2" j with
        | (.ok (some _), g', j') => (match g'.encryptSaved Format.json Toy.env p j' with
          | .error _ => false
          | .ok (f', j'') => j'' == j' && decide (Toy.env.retrieveDataKey f'.metadata = .ok (Toy.env.newKey j)) &&
            (match f'.decrypt Format.json Toy.env with
              | .error e => decide (e = .metadata .mac)
              | .ok _ => false))
        | _ => false) = true := by decide +kernel
  split at hc
  · cases hc
  rename_i f j hf
  split at hc
  · cases hc
  rename_i g p hg
  split at hc
  · rename_i u g' j' hr
    split at hc
    · cases hc
    · rename_i f' j'' he
      simp only [Bool.and_eq_true, beq_iff_eq, decide_eq_true_eq] at hc
      obtain ⟨⟨h1, h2⟩, h3⟩ := hc
      subst h1
      cases hx : f'.decrypt Format.json Toy.env with
      | ok y => rw [hx] at h3; cases h3
      | error e =>
        rw [hx] at h3
        have h3 := of_decide_eq_true h3
        subst h3
        exact ⟨f, f', g, g', p, u, j, j'', hf, hg, hr, he, h2, hx⟩
  · cases hc

end Rops.Props
