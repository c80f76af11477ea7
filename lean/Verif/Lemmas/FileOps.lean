import Verif.Lemmas.File
/-! The operations on files keep files good. -/

namespace Rops
open Spec

theorem Spec.EnvLaws.withHost {env : Env} (h : EnvLaws env) (host : Host) : EnvLaws (env.withHost host) :=
  ⟨h.cipher, h.hasher, h.age, h.kms, h.nonce_length, h.key_length⟩

theorem Spec.Holding.withHost {env : Env} {F : Format} {rep : Value → Prop} {f : EncFile F} {key : Bytes} {m : RMap Value}
    {m' : RMap EncLeaf} (h : Holding env rep f key m m') (host : Host) : Holding (env.withHost host) rep f key m m' :=
  ⟨h.key_length, h.units, h.ids, h.fits, h.read, h.written, h.sealed, h.mac, h.mac_type, h.mac_sized⟩

theorem Spec.Holding.ofHost {env : Env} {F : Format} {rep : Value → Prop} {f : EncFile F} {key : Bytes} {m : RMap Value}
    {m' : RMap EncLeaf} {host : Host} (h : Holding (env.withHost host) rep f key m m') : Holding env rep f key m m' :=
  ⟨h.key_length, h.units, h.ids, h.fits, h.read, h.written, h.sealed, h.mac, h.mac_type, h.mac_sized⟩

/-! ## Encrypting -/

theorem Mac.nonceFor_length {C : Cipher} {tape : Nat → Bytes} (ht : ∀ i, (tape i).length = C.nonceSize)
    {saved : Option SavedMacNonce} (hs : ∀ s, saved = some s → s.nonce.length = C.nonceSize) (mac : Mac) (i : Nat) :
    (Mac.nonceFor tape saved mac i).1.length = C.nonceSize := by
  unfold Mac.nonceFor
  cases saved with
  | none => exact ht i
  | some s =>
    simp only
    split
    · exact hs s rfl
    · exact ht i

/-- The parts of a produced file make it good. -/
theorem holding_of_parts {env : Env} (he : EnvLaws env) {Fo : Format} {rep : Value → Prop} (hFo : Format.Lawful Fo rep)
    {f : EncFile Fo} {key : Bytes} {m : RMap Value} {m' : RMap EncLeaf}
    {sm : Option SavedNonces} {sc : Option SavedMacNonce} {i i1 i2 j : Nat}
    (hkey : key.length = dataKeySize) (hw : AllWrap env.A env.K f.metadata.integration key)
    (hids : ∀ k, (keyIds f.metadata.integration k).Nodup)
    (hfits : Fits env.fl rep f.metadata.partialEncryption m)
    (hsm : SavedSized env.C sm) (hsc : ∀ s, sc = some s → s.nonce.length = env.C.nonceSize)
    (hm : RMap.encrypt (env.encEnv key sm) f.metadata.partialEncryption m i = .ok (m', i1))
    (hmac : Mac.encrypt env.C env.nonce key f.metadata.lastModified sc
      (macText env.H env.rx f.metadata.partialEncryption f.metadata.macOnlyEncrypted m) i2 = .ok (f.metadata.mac, j))
    (hmap : Fo.encOfInternal env.C m' = some f.map) : Holding env rep f key m m' := by
  have hsealed : Sealed env.C env.rx key f.metadata.partialEncryption m m' :=
    sealed_of_encrypt (env := env.encEnv key sm) he.cipher he.nonce_length hsm hfits.keys hm
  have henc : EncHolds env.C env.rx f.metadata.partialEncryption rep m' := encHolds_of_sealed hfits.holds hsealed
  obtain ⟨x, hx1, hx2⟩ := hFo.enc_round_trip env.C he.cipher.name_no_comma env.rx _ m' henc
  rw [hmap] at hx1
  cases hx1
  obtain ⟨h1, h2, h3⟩ := Mac.encrypt_ok hmac
  refine ⟨hkey, hw, hids, hfits, hx2, hmap, hsealed, h1, h2, ?_, he.cipher.tag_length h1⟩
  have := Mac.nonceFor_length he.nonce_length hsc
    (macText env.H env.rx f.metadata.partialEncryption f.metadata.macOnlyEncrypted m) i2
  rw [← h3] at this
  exact this

/-- Encrypting a decrypted file whose units wrap the key gives a good file. -/
theorem holding_of_encryptWith {env : Env} (he : EnvLaws env) {F Fo : Format} {rep : Value → Prop}
    (hFo : Format.Lawful Fo rep) {g : DecFile F} {m : RMap Value} (hg : Plaintext env g m)
    (hfits : Fits env.fl rep g.metadata.partialEncryption m) {key : Bytes} (hkey : key.length = dataKeySize)
    (hw : AllWrap env.A env.K g.metadata.integration key) (hids : ∀ k, (keyIds g.metadata.integration k).Nodup)
    {sm : Option SavedNonces} {sc : Option SavedMacNonce} (hsm : SavedSized env.C sm)
    (hsc : ∀ s, sc = some s → s.nonce.length = env.C.nonceSize) {i j : Nat} {f : EncFile Fo}
    (h : g.encryptWith Fo env key sm sc i = .ok (f, j)) :
    ∃ m' i1, Holding env rep f key m m' ∧ f.metadata = decMetadata g.metadata f.metadata.mac ∧
      RMap.encrypt (env.encEnv key sm) g.metadata.partialEncryption m i = .ok (m', i1) ∧
      (f.metadata.mac.nonce, j) = Mac.nonceFor env.nonce sc g.metadata.mac i1 := by
  obtain ⟨m1, m', i1, h1, h2, h3, h4, h5⟩ := encryptWith_ok_iff.1 h
  rw [hg.read] at h1
  cases h1
  have h3' := h3
  have e : f.metadata.partialEncryption = g.metadata.partialEncryption := by rw [h4]; rfl
  have e2 : f.metadata.macOnlyEncrypted = g.metadata.macOnlyEncrypted := by rw [h4]; rfl
  have e3 : f.metadata.integration = g.metadata.integration := by rw [h4]; rfl
  have e4 : f.metadata.lastModified = g.metadata.lastModified := by rw [h4]; rfl
  refine ⟨m', i1, ?_, h4, h2, (Mac.encrypt_ok h3).2.2⟩
  refine holding_of_parts he hFo (sm := sm) (sc := sc) hkey (by rw [e3]; exact hw) (by rw [e3]; exact hids)
    (by rw [e]; exact hfits) hsm hsc (by rw [e]; exact h2) (i2 := i1) (j := j) ?_ h5
  rw [e, e2, e4, ← hg.mac]
  exact h3

/-! ## Decrypting -/

/-- A good file decrypts to its map for everyone who finds a data key. -/
theorem ofInternal_of_holding {env : Env} (he : EnvLaws env) {F Fo : Format} {rep rep' : Value → Prop}
    (hFo : Format.Lawful Fo rep') {f : EncFile F} {key : Bytes} {m : RMap Value} {m' : RMap EncLeaf}
    (h : Holding env rep f key m m') (hm : Holds rep' m) {d : Bytes} (hr : env.retrieveDataKey f.metadata = .ok d)
    {g : DecFile Fo} (hg : f.decrypt Fo env = .ok g) : Fo.ofInternal m = some g.map := by
  have hdk := retrieve_of_allWrap he h.key_length h.units hr
  subst hdk
  obtain ⟨x, hx1, _⟩ := hFo.round_trip m hm
  have hd : RMap.decrypt (env.decEnv d) m' = .ok m := decrypt_of_sealed he.cipher h.fits.canonical h.sealed
  have hmac := he.cipher.decrypt_encrypt h.mac
  rw [← Env.macOf_eq he.hasher f.metadata m] at hmac
  have := (decrypt_ok_iff (g := { map := x, metadata := decMetadata f.metadata (env.macOf f.metadata m) })).2
    ⟨d, m', m, hr, h.read, hd, hmac, hx1, rfl⟩
  rw [hg] at this
  cases this
  exact hx1

theorem decrypt_of_holding {env : Env} (he : EnvLaws env) {F Fo : Format} {rep rep' : Value → Prop}
    (hFo : Format.Lawful Fo rep') {f : EncFile F} {key : Bytes} {m : RMap Value} {m' : RMap EncLeaf}
    (h : Holding env rep f key m m') (hm : Holds rep' m) {d : Bytes} (hr : env.retrieveDataKey f.metadata = .ok d) :
    ∃ g : DecFile Fo, f.decrypt Fo env = .ok g ∧ Plaintext env g m ∧
      g.metadata = decMetadata f.metadata g.metadata.mac ∧
      f.decryptAndSave Fo env = .ok (g, { dataKey := key, mapNonces := savedAll (leaves m') (leaves m) []
                                          macNonce := { mac := g.metadata.mac, nonce := f.metadata.mac.nonce } }) := by
  have hdk := retrieve_of_allWrap he h.key_length h.units hr
  subst hdk
  obtain ⟨x, hx1, hx2⟩ := hFo.round_trip m hm
  have hd : RMap.decrypt (env.decEnv d) m' = .ok m := decrypt_of_sealed he.cipher h.fits.canonical h.sealed
  have hmac := he.cipher.decrypt_encrypt h.mac
  rw [← Env.macOf_eq he.hasher f.metadata m] at hmac
  refine ⟨{ map := x, metadata := decMetadata f.metadata (env.macOf f.metadata m) }, ?_, ⟨hx2, ?_⟩, rfl, ?_⟩
  · exact decrypt_ok_iff.2 ⟨d, m', m, hr, h.read, hd, hmac, hx1, rfl⟩
  · exact Env.macOf_eq he.hasher f.metadata m
  · exact decryptAndSave_ok_iff.2 ⟨d, m', m, hr, h.read, hd, hmac, hx1, rfl, rfl⟩

/-- What a successful decryption of a good file gives. -/
theorem of_decrypt_holding {env : Env} (he : EnvLaws env) {F Fo : Format} {rep rep' : Value → Prop}
    (hFo : Format.Lawful Fo rep') {f : EncFile F} {key : Bytes} {m : RMap Value} {m' : RMap EncLeaf}
    (h : Holding env rep f key m m') (hm : Holds rep' m) {g : DecFile Fo} (hg : f.decrypt Fo env = .ok g) :
    env.retrieveDataKey f.metadata = .ok key ∧ Plaintext env g m ∧ g.metadata = decMetadata f.metadata g.metadata.mac := by
  obtain ⟨d, _, _, hr, _⟩ := decrypt_ok_iff.1 hg
  cases retrieve_of_allWrap he h.key_length h.units hr
  obtain ⟨g', h1, h2, h3, h4⟩ := decrypt_of_holding he hFo h hm hr
  rw [hg] at h1
  cases h1
  exact ⟨hr, h2, h3⟩

/-- The same with saved parameters. -/
theorem of_decryptAndSave_holding {env : Env} (he : EnvLaws env) {F Fo : Format}
    {rep rep' : Value → Prop} (hFo : Format.Lawful Fo rep') {f : EncFile F} {key : Bytes} {m : RMap Value}
    {m' : RMap EncLeaf} (h : Holding env rep f key m m') (hm : Holds rep' m) {g : DecFile Fo} {p : SavedParameters}
    (hg : f.decryptAndSave Fo env = .ok (g, p)) :
    env.retrieveDataKey f.metadata = .ok key ∧ Plaintext env g m ∧ g.metadata = decMetadata f.metadata g.metadata.mac ∧
      p = { dataKey := key, mapNonces := savedAll (leaves m') (leaves m) []
            macNonce := { mac := g.metadata.mac, nonce := f.metadata.mac.nonce } } := by
  obtain ⟨d, _, _, hr, _⟩ := decryptAndSave_ok_iff.1 hg
  cases retrieve_of_allWrap he h.key_length h.units hr
  obtain ⟨g', h1, h2, h3, h4⟩ := decrypt_of_holding he hFo h hm hr
  rw [hg] at h4
  cases h4
  exact ⟨hr, h2, h3, rfl⟩

/-! ## Adding keys -/

theorem File.addKeys_ok {F : Format} {M : Type} {env : Env} {k : Kind} {ids : List k.Id} {f f' : File F M} {i j : Nat}
    (h : f.addKeys env k ids i = (.ok (), f', j)) : ∃ key im, env.retrieveDataKey f.metadata = .ok key ∧
      env.addKeys k key ids f.metadata.integration i = (.ok (), im, j) ∧
      f' = { f with metadata := { f.metadata with integration := im } } := by
  unfold File.addKeys at h
  cases h1 : env.retrieveDataKey f.metadata with
  | error e => rw [h1] at h; simp at h
  | ok key =>
    rw [h1] at h
    simp only at h
    rcases h2 : env.addKeys k key ids f.metadata.integration i with ⟨res, im, i'⟩
    rw [h2] at h
    cases res with
    | error e => simp at h
    | ok u => simp only [Prod.mk.injEq, true_and] at h; exact ⟨key, im, rfl, by rw [← h.2]; exact h2, h.1.symm⟩

theorem allWrap_addKeys {env : KeyEnv} {k : Kind} {d : Bytes} {ids : List k.Id} {m m' : IntegrationMetadata}
    {i j : Nat} {res : Except IntegrationError Unit} (h : env.addKeys k d ids m i = (res, m', j))
    (hn : ∀ k, (keyIds m k).Nodup) (hw : AllWrap env.A env.K m d) :
    AllWrap env.A env.K m' d ∧ (∀ k, (keyIds m' k).Nodup) ∧ i ≤ j := by
  obtain ⟨done, h1, h2, h3, h4, h5, h6, h7⟩ := addKeys_spec env k d ids m i (hn k) h
  refine ⟨fun k' u hu => ?_, fun k' => ?_, h7⟩
  · by_cases hk : k' = k
    · subst hk
      rcases h5 u hu with ⟨hu', _⟩ | ⟨_, hu'⟩
      · exact hw k' u hu'
      · exact hu'
    · rw [h3 k' hk] at hu
      exact hw k' u hu
  · by_cases hk : k' = k
    · subst hk
      rw [h4]
      exact addIds_nodup (hn k')
    · unfold keyIds
      rw [h3 k' hk]
      exact hn k'

theorem holding_addKeys {env : Env} (he : EnvLaws env) {F : Format} {rep : Value → Prop} {f f' : EncFile F}
    {key : Bytes} {m : RMap Value} {m' : RMap EncLeaf} (h : Holding env rep f key m m') {k : Kind} {ids : List k.Id}
    {i j : Nat} (ha : f.addKeys env k ids i = (.ok (), f', j)) : Holding env rep f' key m m' ∧ i ≤ j := by
  obtain ⟨d, im, h1, h2, rfl⟩ := File.addKeys_ok ha
  cases retrieve_of_allWrap he h.key_length h.units h1
  obtain ⟨hw, hn, hij⟩ := allWrap_addKeys h2 h.ids h.units
  exact ⟨⟨h.key_length, hw, hn, h.fits, h.read, h.written, h.sealed, h.mac, h.mac_type, h.mac_sized⟩, hij⟩

/-! ## The builder -/

theorem intoMetadata_ok {env : KeyEnv} {age : List (Kind.Id .age)} {kms : List (Kind.Id .kms)} {d : Bytes} {i j : Nat}
    {im : IntegrationMetadata} (h : env.intoMetadata age kms d i = .ok (im, j)) :
    ¬ (age = [] ∧ kms = []) ∧ AllWrap env.A env.K im d ∧
      keyIds im .age = addIds [] age ∧ keyIds im .kms = addIds [] kms ∧ i ≤ j := by
  unfold KeyEnv.intoMetadata at h
  split at h
  · cases h
  rename_i hne
  rcases h1 : env.addKeys .age d age .empty i with ⟨r1, im1, i1⟩
  rw [h1] at h
  cases r1 with
  | error e => simp at h
  | ok u =>
    simp only at h
    rcases h2 : env.addKeys .kms d kms im1 i1 with ⟨r2, im2, i2⟩
    rw [h2] at h
    cases r2 with
    | error e => simp at h
    | ok u =>
      simp only [Except.ok.injEq, Prod.mk.injEq] at h
      obtain ⟨rfl, rfl⟩ := h
      have hn0 : ∀ k, (keyIds IntegrationMetadata.empty k).Nodup := by intro k; cases k <;> exact List.nodup_nil
      have hw0 : AllWrap env.A env.K IntegrationMetadata.empty d := by intro k u hu; cases k <;> cases hu
      obtain ⟨w1, n1, l1⟩ := allWrap_addKeys h1 hn0 hw0
      obtain ⟨w2, n2, l2⟩ := allWrap_addKeys h2 n1 w1
      obtain ⟨d1, _, e1, o1, k1, _⟩ := addKeys_spec env .age d age .empty i (hn0 .age) h1
      obtain ⟨d2, _, e2, o2, k2, _⟩ := addKeys_spec env .kms d kms im1 i1 (n1 .kms) h2
      rw [e1 rfl] at k1
      rw [e2 rfl] at k2
      refine ⟨?_, w2, ?_, ?_, by omega⟩
      · rintro ⟨rfl, rfl⟩; simp at hne
      · unfold keyIds at k1 ⊢
        rw [o2 .age (by decide)]
        exact k1
      · have : keyIds im1 .kms = [] := by unfold keyIds; rw [o1 .kms (by decide)]; rfl
        rw [k2, this]

theorem Builder.encrypt_ok {F : Format} {env : Env} {b : Builder F} {i j : Nat} {f : EncFile F}
    (h : b.encrypt env i = .ok (f, j)) : ∃ m m' i1 im i2, F.toInternal b.map = .ok m ∧
      RMap.encrypt (env.encEnv (env.newKey i) none) b.partialEncryption m (i + 1) = .ok (m', i1) ∧
      env.intoMetadata b.ageKeyIds b.kmsKeyIds (env.newKey i) i1 = .ok (im, i2) ∧
      Mac.encrypt env.C env.nonce (env.newKey i) (env.clock i2).truncate none
        (Mac.compute env.H env.rx (MacConfig.new b.macOnlyEncrypted b.partialEncryption) m) i2
        = .ok (f.metadata.mac, j) ∧
      F.encOfInternal env.C m' = some f.map ∧
      f.metadata = { integration := im, lastModified := (env.clock i2).truncate, mac := f.metadata.mac
                     partialEncryption := b.partialEncryption, macOnlyEncrypted := b.macOnlyEncrypted } := by
  unfold Builder.encrypt at h
  simp only at h
  cases h1 : F.toInternal b.map with
  | error e => rw [h1] at h; cases h
  | ok m =>
    rw [h1] at h
    simp only at h
    cases h2 : RMap.encrypt (env.encEnv (env.newKey i) none) b.partialEncryption m (i + 1) with
    | error e =>
      rw [h2] at h
      simp only at h
      split at h
      · cases h
      · cases h
    | ok r =>
      obtain ⟨m', i1⟩ := r
      rw [h2] at h
      simp only at h
      cases h3 : env.intoMetadata b.ageKeyIds b.kmsKeyIds (env.newKey i) i1 with
      | error e => rw [h3] at h; cases h
      | ok r =>
        obtain ⟨im, i2⟩ := r
        rw [h3] at h
        simp only [Env.encryptMetadata] at h
        cases h4 : Mac.encrypt env.C env.nonce (env.newKey i) (env.clock i2).truncate none
            (Mac.compute env.H env.rx (MacConfig.new b.macOnlyEncrypted b.partialEncryption) m) i2 with
        | error e => rw [h4] at h; cases h
        | ok r =>
          obtain ⟨mac, i3⟩ := r
          rw [h4] at h
          simp only at h
          cases h5 : F.encOfInternal env.C m' with
          | none => rw [h5] at h; cases h
          | some x =>
            rw [h5] at h
            simp only [Except.ok.injEq, Prod.mk.injEq] at h
            obtain ⟨rfl, rfl⟩ := h
            exact ⟨m, m', i1, im, i2, rfl, h2, h3, h4, h5, rfl⟩

theorem addIds_nil_nodup {α : Type} [DecidableEq α] (ids : List α) : (addIds [] ids).Nodup :=
  addIds_nodup List.nodup_nil

theorem holding_of_builder {env : Env} (he : EnvLaws env) {F : Format} {rep : Value → Prop}
    (hF : Format.Lawful F rep) {b : Builder F} {m : RMap Value} (hb : F.toInternal b.map = .ok m)
    (hfits : Fits env.fl rep b.partialEncryption m) {i j : Nat} {f : EncFile F} (h : b.encrypt env i = .ok (f, j)) :
    ∃ m' i1 i2, Holding env rep f (env.newKey i) m m' ∧
      RMap.encrypt (env.encEnv (env.newKey i) none) b.partialEncryption m (i + 1) = .ok (m', i1) ∧
      i1 ≤ i2 ∧ f.metadata.mac.nonce = env.nonce i2 ∧ j = i2 + 1 := by
  obtain ⟨m1, m', i1, im, i2, h1, h2, h3, h4, h5, h6⟩ := Builder.encrypt_ok h
  rw [hb] at h1
  cases h1
  obtain ⟨_, hw, k1, k2, hle⟩ := intoMetadata_ok h3
  have h7 := (Mac.encrypt_ok h4).2.2
  simp only [Mac.nonceFor, Prod.mk.injEq] at h7
  refine ⟨m', i1, i2, ?_, h2, hle, h7.1, h7.2⟩
  have e1 : f.metadata.integration = im := by rw [h6]
  have e2 : f.metadata.partialEncryption = b.partialEncryption := by rw [h6]
  have e3 : f.metadata.macOnlyEncrypted = b.macOnlyEncrypted := by rw [h6]
  have e4 : f.metadata.lastModified = (env.clock i2).truncate := by rw [h6]
  refine holding_of_parts he hF (sm := none) (sc := none) (he.key_length i) (by rw [e1]; exact hw) ?_
    (by rw [e2]; exact hfits) (fun t ht => by cases ht) (fun t ht => by cases ht) (by rw [e2]; exact h2)
    (i2 := i2) (j := j) ?_ h5
  · intro k
    rw [e1]
    cases k
    · rw [k1]; exact addIds_nil_nodup _
    · rw [k2]; exact addIds_nil_nodup _
  · rw [e2, e3, e4, macText, ← Mac.compute_eq he.hasher]
    exact h4

/-- If all units wrap the data key, a process with an age identity that has a unit finds it,
whatever other age identities it has. -/
theorem retrieve_of_identity {env : Env} (he : EnvLaws env) {M : Type} {md : Metadata M} {key : Bytes}
    (hkey : key.length = dataKeySize) (hw : AllWrap env.A env.K md.integration key) {ks : List env.A.Identity}
    {k : env.A.Identity} (hr : retrievePrivateKeys (Age.parsePrivateKey env.A) env.host c!"age" = .ok ks) (hks : k ∈ ks)
    (hk : env.A.toPublic k ∈ keyIds md.integration .age) : env.retrieveDataKey md = .ok key := by
  rw [retrieveDataKey_ok]
  have hdec : ∀ u : IUnit .age, Wraps env.A env.K .age u key →
      (env.decryptDataKey .age u.keyId u.enc = .ok (some key) ∨
        env.decryptDataKey .age u.keyId u.enc = .ok none ∧ env.A.toPublic k ≠ u.keyId) := by
    intro u hu
    simp only [KeyEnv.decryptDataKey, Age.decryptDataKey, hr]
    cases hf : ks.find? (fun k => env.A.toPublic k == u.keyId) with
    | none =>
      have := List.find?_eq_none.1 hf k hks
      exact .inr ⟨rfl, by simpa using this⟩
    | some k' =>
      have h1 := List.find?_some hf
      simp only [beq_iff_eq] at h1
      obtain ⟨i, hi⟩ := hu
      simp only [he.age.unwrap_wrap h1 hi]
      rw [if_pos (by rw [hkey]; exact Nat.le_refl _), ← hkey, List.take_length]
      exact .inl rfl
  have hfind : ∀ us : Units .age, (∀ u ∈ us, Wraps env.A env.K .age u key) → env.A.toPublic k ∈ us.map IUnit.keyId →
      env.findDataKey .age us = some (.ok key) := by
    intro us
    induction us with
    | nil => intro _ hx; simp at hx
    | cons u r ih =>
      intro hw hx
      simp only [KeyEnv.findDataKey]
      rcases hdec u (hw u (by simp)) with h | ⟨h, hp⟩
      · rw [h]
      · rw [h]
        apply ih (fun u hu => hw u (by simp [hu]))
        simpa [hp] using hx
  unfold KeyEnv.decryptAny
  rw [hfind md.integration.age (fun u hu => hw .age u hu) hk]

/-- If the saved table has a nonce for an encrypted leaf, that nonce is used. -/
theorem table_nonce {env : EncEnv} {t : SavedNonces} (hs : env.saved = some t) {cfg : Option PartialEncryption}
    {m : RMap Value} {m' : RMap EncLeaf} {i j : Nat} (h : RMap.encrypt env cfg m i = .ok (m', j)) {n : Nat}
    {q : List Str} {e : EncValue} {v : Value} (hl : (leaves m')[n]? = some (q, .encrypted e))
    (hv : (leaves m)[n]? = some (q, v)) (ht : (t.get (pathText q) v).isSome) : t.get (pathText q) v = some e.nonce := by
  obtain ⟨v1, s1, s2, hv1, hf⟩ := travList_getElem' (RMap.encrypt_ok_iff.1 h).2 hl
  rw [hv] at hv1
  cases hv1
  rw [EncEnv.leafAt_ok] at hf
  rcases hf with ⟨_, hx, _⟩ | ⟨_, e1, hx, he, _⟩
  · cases hx
  · cases hx
    obtain ⟨x, hx⟩ := Option.isSome_iff_exists.1 ht
    have hn : env.nonceFor (pathText q) v s1 = (x, s1) := by simp [EncEnv.nonceFor, hs, hx]
    rw [hn] at he
    rw [hx, (Value.nonce_of_encrypt he).1]

end Rops
