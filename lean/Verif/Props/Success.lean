import Verif.Lemmas.Success
import Verif.Lemmas.Again
import Verif.Props.Twice
import Verif.Props.Crashes
/-!
# When commands that write encrypted files succeed

C67: which keys a process needs for `encrypt`, `refresh`, `keys add` and `keys remove`.
-/

namespace Rops.Props
open Rops Spec

theorem delivered_exists {P : Proc} {inPlace : Bool} {file : Option Str} (h : Deliverable P inPlace file)
    (hf : ¬ (inPlace = true ∧ file = none)) (out : Str) : ∃ es, Delivered P inPlace file out es := by
  unfold Deliverable at h
  cases inPlace with
  | false => exact ⟨_, .inr ⟨rfl, h, rfl⟩⟩
  | true =>
    cases file with
    | none => exact absurd ⟨rfl, rfl⟩ hf
    | some p => exact ⟨_, .inl ⟨rfl, p, rfl, h p rfl _, rfl⟩⟩

theorem builder_iff {x : Fmt} {env : Env} (hC : env.C.Total) {b : Builder x.doc.F} (hb : FiniteDoc x b.map)
    (hage : ∀ id ∈ b.ageKeyIds, Steady env.toKeyEnv .age id) (hkms : ∀ id ∈ b.kmsKeyIds, Steady env.toKeyEnv .kms id) (i : Nat) :
    (∃ f j, b.encrypt env i = .ok (f, j)) ↔ (∃ m, x.doc.F.toInternal b.map = .ok m) ∧
      ¬ (b.ageKeyIds = [] ∧ b.kmsKeyIds = []) ∧ (∀ id ∈ b.ageKeyIds, CanWrap env.toKeyEnv .age id) ∧
      ∀ id ∈ b.kmsKeyIds, CanWrap env.toKeyEnv .kms id := by
  constructor
  · rintro ⟨f, j, h⟩
    obtain ⟨m, m', i1, im, i2, h1, h2, h3, _⟩ := Builder.encrypt_ok h
    have hne := (intoMetadata_ok h3).1
    unfold KeyEnv.intoMetadata at h3
    split at h3
    · cases h3
    · split at h3
      · cases h3
      · rename_i ha
        split at h3
        · cases h3
        · rename_i hk
          exact ⟨⟨m, h1⟩, hne, fun id hid => (hage id hid).canWrap (addKeys_wrapped ha id hid),
            fun id hid => (hkms id hid).canWrap (addKeys_wrapped hk id hid)⟩
  · rintro ⟨⟨m, hm⟩, hne, ha, hk⟩
    unfold Builder.encrypt
    simp only [hm]
    obtain ⟨m', i1, h1⟩ := RMap.encrypt_total (env := env.encEnv (env.newKey i) none) hC b.partialEncryption m (i + 1)
    rw [h1]
    simp only
    obtain ⟨im1, j1, h2⟩ := addKeys_total (env.newKey i) ha .empty i1
    obtain ⟨im2, j2, h3⟩ := addKeys_total (env.newKey i) hk im1 j1
    have h4 : env.intoMetadata b.ageKeyIds b.kmsKeyIds (env.newKey i) i1 = .ok (im2, j2) := by
      unfold KeyEnv.intoMetadata
      rw [if_neg (by simpa using hne), h2]
      simp only [h3]
    rw [h4]
    simp only
    have hx := encOfInternal_some (C := env.C) (hb m hm) h1
    cases hy : x.doc.F.encOfInternal env.C m' with
    | none => exact absurd hy hx
    | some y =>
      unfold Env.encryptMetadata
      obtain ⟨e, j, h5⟩ : ∃ e j, Mac.encrypt env.C env.nonce (env.newKey i) (env.clock j2).truncate none
          (Mac.compute env.H env.rx (MacConfig.new b.macOnlyEncrypted b.partialEncryption) m) j2 = .ok (e, j) := by
        unfold Mac.encrypt
        generalize Mac.nonceFor env.nonce none _ j2 = q
        have := hC q.1 (env.newKey i) (Mac.compute env.H env.rx (MacConfig.new b.macOnlyEncrypted b.partialEncryption) m)
          (env.clock j2).truncate.toBytes
        cases h : env.C.encrypt q.1 (env.newKey i) (Mac.compute env.H env.rx (MacConfig.new b.macOnlyEncrypted b.partialEncryption) m)
          (env.clock j2).truncate.toBytes with
        | none => rw [h] at this; cases this
        | some r => simp only [h]; exact ⟨_, _, rfl⟩
      simp only [h5, hy]
      exact ⟨_, _, rfl⟩

/-- **C67.** `rops encrypt` succeeds exactly if the flags are acceptable, the text is a document
that rops can represent, at least one key is given or in the rule, and the process can encrypt for
each of these keys. (The configuration, the format and the text are found and the result can be
delivered; the cipher does not fail; JSON texts have only finite numbers; whether the process can
encrypt for a key does not change meanwhile.) -/
theorem C67_encrypt_iff {P : Proc} (hC : P.env.C.Total) (hT : FiniteTexts (P.T .json)) {l : EncryptLine} {config : Config}
    (hc : P.retrieveConfig l.input.config = .ok config) {x : Fmt} (hx : getFormat l.input.file l.input.format = .ok x)
    {s : Str} (hs : InputText P l.input.file s) (hd : Deliverable P l.inPlace l.input.file)
    (hsteady : ∀ k, ∀ id ∈ encryptKeys P.env.rx config l k, Steady P.env.toKeyEnv k id) (i : Nat) :
    (∃ es, P.run (.encrypt l) i = (es, .ok ())) ↔
      ¬ (l.macOnlyEncrypted = true ∧ l.setting = none) ∧ ¬ (l.inPlace = true ∧ l.input.file = none) ∧
      (∃ map m, (P.T x).parse s = some map ∧ x.doc.F.toInternal map = .ok m) ∧
      (∃ k id, id ∈ encryptKeys P.env.rx config l k) ∧
      ∀ k, ∀ id ∈ encryptKeys P.env.rx config l k, CanWrap P.env.toKeyEnv k id := by
  have hne : ∀ {a : List (Kind.Id .age)} {b : List (Kind.Id .kms)},
      a = encryptKeys P.env.rx config l .age → b = encryptKeys P.env.rx config l .kms →
      (¬ (a = [] ∧ b = []) ↔ ∃ k id, id ∈ encryptKeys P.env.rx config l k) := by
    rintro _ _ rfl rfl
    constructor
    · intro h
      by_cases ha : encryptKeys P.env.rx config l .age = []
      · obtain ⟨id, hid⟩ := List.exists_mem_of_ne_nil _ (fun hb => h ⟨ha, hb⟩)
        exact ⟨.kms, id, hid⟩
      · obtain ⟨id, hid⟩ := List.exists_mem_of_ne_nil _ ha
        exact ⟨.age, id, hid⟩
    · rintro ⟨k, id, hid⟩ ⟨ha, hb⟩
      cases k with
      | age => rw [ha] at hid; cases hid
      | kms => rw [hb] at hid; cases hid
  constructor
  · rintro ⟨es, h⟩
    obtain ⟨h1, h2, config', x', s', map, f, j, hc', hx', hs', hp, hf, _⟩ := run_encrypt_ok.1 h
    rw [hc] at hc'; cases hc'
    rw [hx] at hx'; cases hx'
    cases inputText_unique hs hs'
    obtain ⟨⟨m, a1⟩, a2, a3, a4⟩ := (builder_iff hC (parse_finite hT hp) (hsteady .age) (hsteady .kms) i).1 ⟨f, j, hf⟩
    refine ⟨h1, h2, ⟨map, m, hp, a1⟩, (hne rfl rfl).1 a2, fun k => ?_⟩
    cases k with
    | age => exact a3
    | kms => exact a4
  · rintro ⟨h1, h2, ⟨map, m, hp, hm⟩, h3, h4⟩
    obtain ⟨f, j, hf⟩ := (builder_iff (b := {
        map
        partialEncryption := l.setting.or ((ruleFor P.env.rx config l.input.file).bind CreationRule.partialEncryption)
        macOnlyEncrypted := if l.macOnlyEncrypted then some true else none
        ageKeyIds := l.keys.age ++ (ruleKeys (ruleFor P.env.rx config l.input.file)).age
        kmsKeyIds := l.keys.kms ++ (ruleKeys (ruleFor P.env.rx config l.input.file)).kms })
      hC (parse_finite hT hp) (hsteady .age) (hsteady .kms) i).2 ⟨⟨m, hm⟩, (hne rfl rfl).2 h3, h4 .age, h4 .kms⟩
    obtain ⟨es, hes⟩ := delivered_exists hd h2 (EncFile.toText (P.T x) P.env.C f)
    exact ⟨es, run_encrypt_ok.2 ⟨h1, h2, config, x, s, map, f, j, hc, hx, hs, hp, hf, hes⟩⟩

/-- **C67.** `rops refresh` on a file succeeds exactly if no rule or one that describes the file
already matches, or the process can read the file, the rule has a key, and the process can encrypt
for each key of the rule, also for those that the file already had. -/
theorem C67_refresh_iff {P : Proc} (he : EnvLaws P.env) (hC : P.env.C.Total) {l : PlaceLine} {config : Config}
    (hc : P.retrieveConfig l.input.config = .ok config) {x : Fmt} (hx : getFormat l.input.file l.input.format = .ok x)
    {s : Str} (hs : InputText P l.input.file s) (hd : Deliverable P l.inPlace l.input.file)
    {f : EncFile x.doc.F} (hf : EncFile.ofText (P.T x) P.O P.env.C s = some f)
    {key : Bytes} {m : RMap Value} {m' : RMap EncLeaf} (hh : Holding P.env (docRep x) f key m m')
    (hsteady : ∀ k, ∀ id ∈ IntegrationKeys.of (ruleKeys (ruleFor P.env.rx config l.input.file)) k, Steady P.env.toKeyEnv k id)
    (i : Nat) :
    (∃ es, P.run (.refresh l) i = (es, .ok ())) ↔
      ¬ (l.inPlace = true ∧ l.input.file = none) ∧
      ∀ r, ruleFor P.env.rx config l.input.file = some r → Describes r f.metadata ∨
        (∃ d, P.env.retrieveDataKey f.metadata = .ok d) ∧ (∃ k id, id ∈ IntegrationKeys.of r.keys k) ∧
        ∀ k, ∀ id ∈ IntegrationKeys.of r.keys k, CanWrap P.env.toKeyEnv k id := by
  have hne : ∀ r : CreationRule, ¬ (r.keys.age = [] ∧ r.keys.kms = []) ↔ ∃ k id, id ∈ IntegrationKeys.of r.keys k := by
    intro r
    constructor
    · intro h
      by_cases ha : r.keys.age = []
      · obtain ⟨id, hid⟩ := List.exists_mem_of_ne_nil _ (fun hb => h ⟨ha, hb⟩)
        exact ⟨.kms, id, hid⟩
      · obtain ⟨id, hid⟩ := List.exists_mem_of_ne_nil _ ha
        exact ⟨.age, id, hid⟩
    · rintro ⟨k, id, hid⟩ ⟨ha, hb⟩
      cases k with
      | age => rw [IntegrationKeys.of, ha] at hid; cases hid
      | kms => rw [IntegrationKeys.of, hb] at hid; cases hid
  constructor
  · rintro ⟨es, h⟩
    obtain ⟨h1, config', x', s', f', out, hc', hx', hs', hf', hw, _⟩ := run_refresh_ok.1 h
    rw [hc] at hc'; cases hc'
    rw [hx] at hx'; cases hx'
    cases inputText_unique hs hs'
    rw [hf] at hf'; cases hf'
    refine ⟨h1, fun r hr => ?_⟩
    rw [hr] at hsteady
    rcases refreshWith_ok.1 hw with ⟨h2, _⟩ | ⟨r', hr', hnd, g, f2, j, hg, hb, _⟩
    · exact .inl (h2 r hr)
    · rw [hr] at hr'
      cases hr'
      obtain ⟨_, a2, a3, a4⟩ := (builder_iff hC (decrypt_finite hg) (hsteady .age) (hsteady .kms) i).1 ⟨f2, j, hb⟩
      obtain ⟨hd', _⟩ := of_decrypt_holding he (docRep_lawful x) hh hh.fits.holds hg
      refine .inr ⟨⟨_, hd'⟩, (hne r).1 a2, fun k => ?_⟩
      cases k with
      | age => exact a3
      | kms => exact a4
  · rintro ⟨h1, h2⟩
    have hout : ∃ out, P.refreshWith x (l.input.file.getD []) s f i config = .ok out := by
      by_cases hall : ∀ r, ruleFor P.env.rx config l.input.file = some r → Describes r f.metadata
      · exact ⟨s, refreshWith_ok.2 (.inl ⟨hall, rfl⟩)⟩
      · simp only [Classical.not_forall] at hall
        obtain ⟨r, hr, hnd⟩ := hall
        rw [hr] at hsteady
        rcases h2 r hr with h | ⟨⟨d, hret⟩, h3, h4⟩
        · exact absurd h hnd
        · obtain ⟨g, hg, hpl, _⟩ := decrypt_of_holding (Fo := x.doc.F) he (docRep_lawful x) hh hh.fits.holds hret
          obtain ⟨f2, j, hb⟩ := (builder_iff (b := {
              map := g.map, partialEncryption := r.partialEncryption
              macOnlyEncrypted := if r.macOnlyEncrypted = some true then some true else none
              ageKeyIds := r.keys.age, kmsKeyIds := r.keys.kms })
            hC (decrypt_finite hg) (hsteady .age) (hsteady .kms) i).2 ⟨⟨m, hpl.read⟩, (hne r).2 h3, h4 .age, h4 .kms⟩
          exact ⟨_, refreshWith_ok.2 (.inr ⟨r, hr, hnd, g, f2, j, hg, hb, rfl⟩)⟩
    obtain ⟨out, hout⟩ := hout
    obtain ⟨es, hes⟩ := delivered_exists hd h1 out
    exact ⟨es, run_refresh_ok.2 ⟨h1, config, x, s, f, out, hc, hx, hs, hf, hout, hes⟩⟩

theorem decryptAny_of_retrieve {M : Type} {env : Env} {md : Metadata M} {d : Bytes} :
    env.retrieveDataKey md = .ok d ↔ env.decryptAny md.integration = .ok (some d) := by
  unfold Env.retrieveDataKey
  cases h : env.decryptAny md.integration with
  | error e => simp
  | ok o => cases o <;> simp

/-- The age keys of a process can be read if it found a data key although there are age units. -/
theorem age_readable {env : KeyEnv} {im : IntegrationMetadata} {d : Bytes} (h : env.decryptAny im = .ok (some d))
    (hne : keyIds im .age ≠ []) : ∃ ks, retrievePrivateKeys (Age.parsePrivateKey env.A) env.host c!"age" = .ok ks := by
  cases hk : retrievePrivateKeys (Age.parsePrivateKey env.A) env.host c!"age" with
  | ok ks => exact ⟨ks, rfl⟩
  | error e =>
    exfalso
    unfold KeyEnv.decryptAny at h
    cases hu : im.age with
    | nil => exact hne (by rw [keyIds, IntegrationMetadata.units, hu]; rfl)
    | cons u r =>
      rw [hu] at h
      simp only [KeyEnv.findDataKey, KeyEnv.decryptDataKey, Age.decryptDataKey, hk] at h
      cases h

/-- A process that finds a data key has a private key for one of the recipients. -/
theorem owns_of_found {env : KeyEnv} {im : IntegrationMetadata} {d : Bytes} (h : env.decryptAny im = .ok (some d)) :
    ∃ k id, id ∈ keyIds im k ∧ Owns env k id := by
  unfold KeyEnv.decryptAny at h
  have hage : ∀ r, env.findDataKey .age im.age = some (.ok r) → ∃ k id, id ∈ keyIds im k ∧ Owns env k id := by
    intro r hr
    obtain ⟨u, hu, he⟩ := findDataKey_mem hr
    refine ⟨.age, u.keyId, List.mem_map_of_mem (show u ∈ im.units .age from hu), ?_⟩
    simp only [KeyEnv.decryptDataKey, Age.decryptDataKey] at he
    split at he
    · cases he
    · rename_i ks hks
      split at he
      · cases he
      · rename_i s hf
        exact ⟨ks, hks, s, List.mem_of_find?_eq_some hf, by simpa using List.find?_some hf⟩
  have hkms : ∀ r, env.findDataKey .kms im.kms = some (.ok r) → ∃ k id, id ∈ keyIds im k ∧ Owns env k id := by
    intro r hr
    obtain ⟨u, hu, he⟩ := findDataKey_mem hr
    refine ⟨.kms, u.keyId, List.mem_map_of_mem (show u ∈ im.units .kms from hu), ?_⟩
    obtain ⟨b, ps, p, _, h2, h3, _⟩ := (C53_decrypt_iff env.K env.host u.keyId u.enc r).1 he
    obtain ⟨h4, before, after, rfl, _⟩ := h3
    exact ⟨_, h2, p, by simp, h4⟩
  split at h
  · rename_i d' hx
    exact hage d' hx
  · cases h
  · split at h
    · rename_i d' hx
      exact hkms d' hx
    · cases h
    · cases h

/-- Adding age keys to a file does not keep a process with readable private keys from finding the
data key. -/
theorem found_after_age {env : Env} (he : EnvLaws env) {im im' : IntegrationMetadata} {key d : Bytes}
    (hkey : key.length = dataKeySize) (hw : AllWrap env.A env.K im key) (hw' : AllWrap env.A env.K im' key)
    (hids : ∀ id ∈ keyIds im .age, id ∈ keyIds im' .age) (hkms : im'.kms = im.kms) (h : env.decryptAny im = .ok (some d))
    (hks : ∃ ks, retrievePrivateKeys (Age.parsePrivateKey env.A) env.host c!"age" = .ok ks) :
    ∃ d', env.decryptAny im' = .ok (some d') := by
  have hall : ∀ {i : IntegrationMetadata}, AllWrap env.A env.K i key → ∀ u ∈ i.age,
      (Owns env.toKeyEnv .age u.keyId ∧ env.decryptDataKey .age u.keyId u.enc = .ok (some key)) ∨
      (¬ Owns env.toKeyEnv .age u.keyId ∧ env.decryptDataKey .age u.keyId u.enc = .ok none) :=
    fun hi u hu => decryptDataKey_owns he.age he.kms hkey (hi .age u hu) (fun _ => hks) (fun e => nomatch e)
  unfold KeyEnv.decryptAny
  cases hf : env.findDataKey .age im'.age with
  | some r =>
    obtain ⟨u, hu, hr⟩ := findDataKey_mem hf
    rcases hall hw' u hu with ⟨_, h2⟩ | ⟨_, h2⟩
    · rw [h2] at hr
      cases r with
      | error e => cases hr
      | ok d' => exact ⟨d', rfl⟩
    · rw [h2] at hr
      cases r <;> cases hr
  | none =>
    have hnone := (findDataKey_eq_none env.toKeyEnv .age im'.age).1 hf
    unfold KeyEnv.decryptAny at h
    cases hf0 : env.findDataKey .age im.age with
    | none =>
      rw [hf0] at h
      simp only at h ⊢
      rw [hkms]
      exact ⟨d, h⟩
    | some r =>
      exfalso
      obtain ⟨u, hu, hr⟩ := findDataKey_mem hf0
      rcases hall hw u hu with ⟨ho, _⟩ | ⟨_, h2⟩
      · obtain ⟨u', hu', e⟩ := List.mem_map.1 (hids u.keyId (List.mem_map_of_mem (show u ∈ im.units .age from hu)))
        rcases hall hw' u' hu' with ⟨_, h2⟩ | ⟨h2, _⟩
        · rw [hnone u' hu'] at h2; cases h2
        · rw [e] at h2; exact h2 ho
      · rw [h2] at hr
        cases r <;> cases hr

/-- **C67.** `rops keys add` on a file succeeds exactly if the process finds the data key of the
file and can encrypt for each of the given keys. If age keys are given the age private keys have to
be readable, also if the data key is found without them. -/
theorem C67_add_iff {P : Proc} (he : EnvLaws P.env) {a : KeyArgs} {config : Config} (hc : P.retrieveConfig none = .ok config)
    {x : Fmt} (hx : getFormat (some a.file) a.format = .ok x) {s : Str} (hs : InputText P (some a.file) s)
    (hd : ∀ b, P.saves a.file b = .done) {f : EncFile x.doc.F} (hf : EncFile.ofText (P.T x) P.O P.env.C s = some f)
    {key : Bytes} {m : RMap Value} {m' : RMap EncLeaf} (hh : Holding P.env (docRep x) f key m m')
    (hsteady : ∀ k, ∀ id ∈ IntegrationKeys.of a.keys k, Steady P.env.toKeyEnv k id) (i : Nat) :
    (∃ es, P.run (.addKeys a) i = (es, .ok ())) ↔
      (∃ d, P.env.retrieveDataKey f.metadata = .ok d) ∧
      (∀ k, ∀ id ∈ IntegrationKeys.of a.keys k, CanWrap P.env.toKeyEnv k id) ∧
      (a.keys.age ≠ [] → ∃ ks, retrievePrivateKeys (Age.parsePrivateKey P.env.A) P.env.host c!"age" = .ok ks) := by
  have hadd : ∀ (f : EncFile x.doc.F) (k : Kind) (ids : List k.Id) (i : Nat) (d : Bytes),
      P.env.retrieveDataKey f.metadata = .ok d → ∀ im j, P.env.addKeys k d ids f.metadata.integration i = (.ok (), im, j) →
      f.addKeys P.env k ids i = (.ok (), { f with metadata := { f.metadata with integration := im } }, j) := by
    intro f k ids i d h1 im j h2
    unfold File.addKeys
    simp only [h1, h2]
  have hok : ∀ {f f1 : EncFile x.doc.F} {k : Kind} {ids : List k.Id} {i j : Nat}, f.addKeys P.env k ids i = (.ok (), f1, j) →
      ∃ d im, P.env.retrieveDataKey f.metadata = .ok d ∧ P.env.addKeys k d ids f.metadata.integration i = (.ok (), im, j) ∧
        f1 = { f with metadata := { f.metadata with integration := im } } := by
    intro f f1 k ids i j h
    unfold File.addKeys at h
    split at h
    · cases h
    · rename_i d hd
      split at h
      · cases h
      · rename_i im i' h1
        cases h
        exact ⟨d, im, hd, h1, rfl⟩
  constructor
  · rintro ⟨es, h⟩
    obtain ⟨_, x', s', f0, f1, f2, j, j', hx', hs', hf', h1, h2, _⟩ := run_addKeys_ok.1 h
    rw [hx] at hx'; cases hx'
    cases inputText_unique hs hs'
    rw [hf] at hf'; cases hf'
    obtain ⟨d, im, a1, a2, rfl⟩ := hok h1
    obtain ⟨d2, im2, b1, b2, _⟩ := hok h2
    refine ⟨⟨d, a1⟩, fun k => ?_, fun hne => ?_⟩
    · cases k with
      | age => exact fun id hid => (hsteady .age id hid).canWrap (addKeys_wrapped a2 id hid)
      | kms => exact fun id hid => (hsteady .kms id hid).canWrap (addKeys_wrapped b2 id hid)
    · refine age_readable (decryptAny_of_retrieve.1 b1) ?_
      obtain ⟨done, _, e1, _, e2, _⟩ := addKeys_spec _ _ _ _ _ _ (hh.ids .age) a2
      cases e1 rfl
      show keyIds im .age ≠ []
      rw [e2]
      obtain ⟨id, hid⟩ := List.exists_mem_of_ne_nil _ hne
      exact fun e => by
        have := (mem_addIds (old := keyIds f.metadata.integration .age) (new := a.keys.age) (x := id)).2 (.inr hid)
        rw [e] at this
        cases this
  · rintro ⟨⟨d, h1⟩, h2, h3⟩
    obtain rfl := retrieve_of_allWrap he hh.key_length hh.units h1
    obtain ⟨im, j, a2⟩ := addKeys_total d (h2 .age) f.metadata.integration i
    have hw := (allWrap_addKeys a2 hh.ids hh.units).1
    obtain ⟨done, _, e1, e3, e2, _⟩ := addKeys_spec _ _ _ _ _ _ (hh.ids .age) a2
    cases e1 rfl
    obtain ⟨d2, hd2⟩ : ∃ d', P.env.decryptAny im = .ok (some d') := by
      by_cases hne : a.keys.age = []
      · rw [show IntegrationKeys.of a.keys .age = [] from hne] at a2
        simp only [KeyEnv.addKeys] at a2
        cases a2
        exact ⟨d, decryptAny_of_retrieve.1 h1⟩
      · refine found_after_age he hh.key_length hh.units hw (fun id hid => ?_) (e3 .kms (by simp)) (decryptAny_of_retrieve.1 h1) (h3 hne)
        rw [e2]
        exact mem_addIds.2 (.inl hid)
    obtain ⟨im2, j2, b2⟩ := addKeys_total d2 (h2 .kms) im j
    have c1 := hadd f .age a.keys.age i d h1 im j a2
    have c2 := hadd { f with metadata := { f.metadata with integration := im } } .kms a.keys.kms j d2
      (decryptAny_of_retrieve.2 hd2) im2 j2 b2
    exact ⟨_, run_addKeys_ok.2 ⟨⟨config, hc⟩, x, s, f, _, _, j, j2, hx, hs, hf, c1, c2, .inl ⟨rfl, _, rfl, hd _, rfl⟩⟩⟩

/-- What `rops keys remove` has done when it succeeded. -/
theorem removed {P : Proc} (he : EnvLaws P.env) {a : KeyArgs} {i : Nat} {es : List Event} (h : P.run (.removeKeys a) i = (es, .ok ()))
    {x : Fmt} (hx : getFormat (some a.file) a.format = .ok x) {s : Str} (hs : InputText P (some a.file) s)
    {f : EncFile x.doc.F} (hf : EncFile.ofText (P.T x) P.O P.env.C s = some f)
    {key : Bytes} {m : RMap Value} {m' : RMap EncLeaf} (hh : Holding P.env (docRep x) f key m m') :
    ∃ (g g1 g2 : DecFile x.doc.F) (j j' j'' : Nat) (f' : EncFile x.doc.F), f.decrypt x.doc.F P.env = .ok g ∧
      Plaintext P.env g m ∧ g.metadata = decMetadata f.metadata g.metadata.mac ∧
      g.removeKeys P.env .age a.keys.age i = .ok (g1, j) ∧ g1.removeKeys P.env .kms a.keys.kms j = .ok (g2, j') ∧
      g2.encrypt x.doc.F P.env j' = .ok (f', j'') ∧ Left P.env g g ∧ Left P.env g g1 ∧ Left P.env g g2 ∧
      Delivered P true (some a.file) (EncFile.toText (P.T x) P.env.C f') es := by
  obtain ⟨_, x', s', f0, g, g1, g2, j, j', j'', f', hx', hs', hf', h1, h2, h3, h4, h5⟩ := run_removeKeys_ok.1 h
  rw [hx] at hx'; cases hx'
  cases inputText_unique hs hs'
  rw [hf] at hf'; cases hf'
  obtain ⟨_, hpl, hmd⟩ := of_decrypt_holding he (docRep_lawful x) hh hh.fits.holds h1
  have ei : g.metadata.integration = f.metadata.integration := by rw [hmd]; rfl
  have hl : Left P.env g g := ⟨rfl, rfl, by rw [ei]; exact hh.ids, key, hh.key_length, by rw [ei]; exact hh.units⟩
  have hl1 := (removeKeys_left he hl h2).1
  have hl2 := (removeKeys_left he hl1 h3).1
  exact ⟨g, g1, g2, j, j', j'', f', h1, hpl, hmd, h2, h3, h4, hl, hl1, hl2, h5⟩

/-- The key ids that `rops keys remove` leaves. -/
theorem removed_ids {env : Env} (he : EnvLaws env) {F : Format} {keys : IntegrationKeys} {g0 g g1 g2 : DecFile F} {i j j' : Nat}
    (hl : Left env g0 g) (h1 : g.removeKeys env .age keys.age i = .ok (g1, j))
    (h2 : g1.removeKeys env .kms keys.kms j = .ok (g2, j')) (k : Kind) (id : k.Id) :
    id ∈ keyIds g2.metadata.integration k ↔ id ∈ keyIds g.metadata.integration k ∧ id ∉ IntegrationKeys.of keys k := by
  obtain ⟨hl1, a2, a3, _⟩ := removeKeys_left he hl h1
  obtain ⟨hl2, b2, b3, _⟩ := removeKeys_left he hl1 h2
  cases k with
  | age => rw [b2 .age (by simp), a3]; simp [IntegrationKeys.of]
  | kms => rw [b3, a2 .kms (by simp)]; simp [IntegrationKeys.of]

/-- **C67.** After a successful `rops keys remove` the same process can still read the file: nobody
locks themselves out with it. -/
theorem C67_remove_keeps_access {P : Proc} (he : EnvLaws P.env) {a : KeyArgs} {i : Nat} {es : List Event}
    (h : P.run (.removeKeys a) i = (es, .ok ()))
    {x : Fmt} (hx : getFormat (some a.file) a.format = .ok x) {s : Str} (hs : InputText P (some a.file) s)
    {f : EncFile x.doc.F} (hf : EncFile.ofText (P.T x) P.O P.env.C s = some f)
    {key : Bytes} {m : RMap Value} {m' : RMap EncLeaf} (hh : Holding P.env (docRep x) f key m m') :
    ∃ (f' : EncFile x.doc.F) (g : DecFile x.doc.F), Delivered P true (some a.file) (EncFile.toText (P.T x) P.env.C f') es ∧
      (∀ k id, id ∈ keyIds f'.metadata.integration k ↔ id ∈ keyIds f.metadata.integration k ∧ id ∉ IntegrationKeys.of a.keys k) ∧
      f'.decrypt x.doc.F P.env = .ok g ∧ x.doc.F.toInternal g.map = .ok m := by
  obtain ⟨g, g1, g2, j, j', j'', f', h1, hpl, hmd, h2, h3, h4, hl, hl1, hl2, h5⟩ := removed he h hx hs hf hh
  have ei : g.metadata.integration = f.metadata.integration := by rw [hmd]; rfl
  have ep : g2.metadata.partialEncryption = f.metadata.partialEncryption := by rw [hl2.metadata, hmd]; rfl
  have hpl2 : Plaintext P.env g2 m := by
    refine ⟨by rw [hl2.map]; exact hpl.read, ?_⟩
    rw [hl2.metadata]
    exact hpl.mac
  unfold DecFile.encrypt at h4
  split at h4
  · cases h4
  · rename_i d hd
    obtain ⟨key', hk', hw'⟩ := hl2.wrap
    cases retrieve_of_allWrap he hk' hw' hd
    obtain ⟨m'', _, hh', hmd', _⟩ := holding_of_encryptWith he (docRep_lawful x) hpl2 (by rw [ep]; exact hh.fits) hk' hw' hl2.ids
      (sm := none) (sc := none) (fun t ht => nomatch ht) (fun s hs => nomatch hs) h4
    have ei' : f'.metadata.integration = g2.metadata.integration := by rw [hmd']; rfl
    obtain ⟨g', hg', hpl', _⟩ := decrypt_of_holding (Fo := x.doc.F) he (docRep_lawful x) hh' hh'.fits.holds (d := d)
      (by rw [decryptAny_of_retrieve, ei', ← decryptAny_of_retrieve]; exact hd)
    exact ⟨f', g', h5, fun k id => by rw [ei', ← ei]; exact removed_ids he hl h2 h3 k id, hg', hpl'.read⟩

/-- **C67.** So it does not succeed if it would leave no recipient for which the process has a
private key. In particular the last recipient cannot be removed. -/
theorem C67_remove_own {P : Proc} (he : EnvLaws P.env) {a : KeyArgs}
    {x : Fmt} (hx : getFormat (some a.file) a.format = .ok x) {s : Str} (hs : InputText P (some a.file) s)
    {f : EncFile x.doc.F} (hf : EncFile.ofText (P.T x) P.O P.env.C s = some f)
    {key : Bytes} {m : RMap Value} {m' : RMap EncLeaf} (hh : Holding P.env (docRep x) f key m m')
    (hnone : ∀ k, ∀ id ∈ keyIds f.metadata.integration k, id ∉ IntegrationKeys.of a.keys k → ¬ Owns P.env.toKeyEnv k id)
    (i : Nat) : (P.run (.removeKeys a) i).2 ≠ .ok () := by
  intro hr
  obtain ⟨f', g, _, h1, h2, _⟩ := C67_remove_keeps_access he (es := (P.run (.removeKeys a) i).1) (Prod.ext rfl hr) hx hs hf hh
  obtain ⟨d, _, _, h3, _⟩ := decrypt_ok_iff.1 h2
  obtain ⟨k, id, h4, h5⟩ := owns_of_found (decryptAny_of_retrieve.1 h3)
  exact hnone k id ((h1 k id).1 h4).1 ((h1 k id).1 h4).2 h5

/-- The others of a key in terms of kinds and ids. -/
theorem others_all {Q : (k : Kind) → k.Id → Prop} {im : IntegrationMetadata} {k : Kind} {id : k.Id} :
    Others Q im k id ↔ ∀ k', ∀ id' ∈ keyIds im k', (⟨k', id'⟩ : (k : Kind) × k.Id) ≠ ⟨k, id⟩ → Q k' id' := by
  constructor
  · rintro ⟨h1, h2⟩ k' id' hid' hne
    by_cases hk : k' = k
    · subst hk
      exact h1 id' hid' (fun e => hne (by rw [e]))
    · exact h2 k' hk id' hid'
  · intro h
    exact ⟨fun id' hid' hne => h k id' hid' (fun e => hne (by cases e; rfl)),
      fun k' hk' id' hid' => h k' id' hid' (fun e => hk' (by cases e; rfl))⟩

theorem removed_others {P : Proc} (he : EnvLaws P.env) {a : KeyArgs} {i : Nat} {es : List Event}
    (h : P.run (.removeKeys a) i = (es, .ok ()))
    {x : Fmt} (hx : getFormat (some a.file) a.format = .ok x) {s : Str} (hs : InputText P (some a.file) s)
    {f : EncFile x.doc.F} (hf : EncFile.ofText (P.T x) P.O P.env.C s = some f)
    {key : Bytes} {m : RMap Value} {m' : RMap EncLeaf} (hh : Holding P.env (docRep x) f key m m')
    {k : Kind} {id : k.Id} (hp : FirstPresent f.metadata.integration a.keys k id) :
    Others (Wrapped P.env.toKeyEnv) f.metadata.integration k id := by
  obtain ⟨g, g1, g2, j, j', j'', f', h1, hpl, hmd, h2, h3, h4, hl, hl1, hl2, h5⟩ := removed he h hx hs hf hh
  have ei : g.metadata.integration = f.metadata.integration := by rw [hmd]; rfl
  rw [← ei] at hp ⊢
  cases k with
  | age => exact removeKeys_others hl.ids h2 hp
  | kms =>
    obtain ⟨_, _, _, a4⟩ := removeKeys_left he hl h2
    have e := a4 hp.1
    subst e
    exact removeKeys_others hl1.ids h3 hp.2

/-- **C67.** A key that the file has is not removed if there is any other recipient for which the
process cannot encrypt, such as a KMS key whose profile it has no private key for. -/
theorem C67_remove_blocked {P : Proc} (he : EnvLaws P.env) {a : KeyArgs}
    {x : Fmt} (hx : getFormat (some a.file) a.format = .ok x) {s : Str} (hs : InputText P (some a.file) s)
    {f : EncFile x.doc.F} (hf : EncFile.ofText (P.T x) P.O P.env.C s = some f)
    {key : Bytes} {m : RMap Value} {m' : RMap EncLeaf} (hh : Holding P.env (docRep x) f key m m')
    {k : Kind} {id : k.Id} (hp : FirstPresent f.metadata.integration a.keys k id)
    {k' : Kind} {id' : k'.Id} (hid' : id' ∈ keyIds f.metadata.integration k')
    (hne : (⟨k', id'⟩ : (k : Kind) × k.Id) ≠ ⟨k, id⟩) (hnever : NeverWraps P.env.toKeyEnv k' id') (i : Nat) :
    (P.run (.removeKeys a) i).2 ≠ .ok () := by
  intro hr
  obtain ⟨d, n, t, h⟩ := others_all.1 (removed_others he (es := (P.run (.removeKeys a) i).1) (Prod.ext rfl hr) hx hs hf hh hp) k' id' hid' hne
  exact hnever.fails d n t h

/-- **C67.** Without a private key for the profile, or if the private keys cannot be read, the
process cannot encrypt for a KMS key. -/
theorem C67_no_credentials {env : KeyEnv} {id : Kind.Id .kms}
    (h : ∀ ps, retrievePrivateKeys AwsPrivateKey.parse env.host c!"aws_kms" = .ok ps → ∀ p ∈ ps, p.profile ≠ id.profile) :
    NeverWraps env .kms id := by
  rintro ps p hps ⟨hp, before, after, rfl, _⟩
  exact absurd hp (h _ hps p (by simp))

/-- **C67.** `rops keys remove` on a file that the process can read succeeds exactly if the process
has a private key for a recipient that is left, and can encrypt for all recipients but the first
one that is removed, age keys before KMS keys. This includes recipients that are removed by the
same command. -/
theorem C67_remove_iff {P : Proc} (he : EnvLaws P.env) (hC : P.env.C.Total) {a : KeyArgs} {config : Config}
    (hc : P.retrieveConfig none = .ok config)
    {x : Fmt} (hx : getFormat (some a.file) a.format = .ok x) {s : Str} (hs : InputText P (some a.file) s)
    (hd : ∀ b, P.saves a.file b = .done) {f : EncFile x.doc.F} (hf : EncFile.ofText (P.T x) P.O P.env.C s = some f)
    {key : Bytes} {m : RMap Value} {m' : RMap EncLeaf} (hh : Holding P.env (docRep x) f key m m')
    {d : Bytes} (hret : P.env.retrieveDataKey f.metadata = .ok d)
    (hsteady : ∀ k, ∀ id ∈ keyIds f.metadata.integration k, Steady P.env.toKeyEnv k id)
    (hopens : ∀ id ∈ keyIds f.metadata.integration .kms, KmsOpens P.env.toKeyEnv id) (i : Nat) :
    (∃ es, P.run (.removeKeys a) i = (es, .ok ())) ↔
      (∃ k id, id ∈ keyIds f.metadata.integration k ∧ id ∉ IntegrationKeys.of a.keys k ∧ Owns P.env.toKeyEnv k id) ∧
      ∀ k id, FirstPresent f.metadata.integration a.keys k id →
        ∀ k', ∀ id' ∈ keyIds f.metadata.integration k', (⟨k', id'⟩ : (k : Kind) × k.Id) ≠ ⟨k, id⟩ → CanWrap P.env.toKeyEnv k' id' := by
  constructor
  · rintro ⟨es, h⟩
    refine ⟨?_, fun k id hp k' id' hid' hne => (hsteady k' id' hid').canWrap
      (others_all.1 (removed_others he h hx hs hf hh hp) k' id' hid' hne)⟩
    obtain ⟨f', g, _, h1, h2, _⟩ := C67_remove_keeps_access he h hx hs hf hh
    obtain ⟨d, _, _, h3, _⟩ := decrypt_ok_iff.1 h2
    obtain ⟨k, id, h4, h5⟩ := owns_of_found (decryptAny_of_retrieve.1 h3)
    exact ⟨k, id, ((h1 k id).1 h4).1, ((h1 k id).1 h4).2, h5⟩
  · rintro ⟨⟨k0, id0, hid0, hnot0, hown0⟩, hoth⟩
    obtain ⟨g, hg, hpl, hmd, _⟩ := decrypt_of_holding (Fo := x.doc.F) he (docRep_lawful x) hh hh.fits.holds hret
    have ei : g.metadata.integration = f.metadata.integration := by rw [hmd]; rfl
    have hl : Left P.env g g := ⟨rfl, rfl, by rw [ei]; exact hh.ids, key, hh.key_length, by rw [ei]; exact hh.units⟩
    obtain ⟨g1, j, h2⟩ := removeKeys_of_others he (k := .age) (ids := a.keys.age) hl
      (fun id hid => by rw [ei] at hid ⊢; exact others_all.2 (hoth .age id hid)) i
    obtain ⟨hl1, b2, b3, b4⟩ := removeKeys_left he hl h2
    obtain ⟨g2, j', h3⟩ : ∃ g2 j', g1.removeKeys P.env .kms a.keys.kms j = .ok (g2, j') := by
      rcases exists_firstIn (present := keyIds f.metadata.integration .age) (given := a.keys.age) with hno | ⟨id, hid⟩
      · have e := b4 (by rw [ei]; exact hno)
        subst e
        exact removeKeys_of_others he hl1 (fun id hid => by rw [ei] at hid ⊢; exact others_all.2 (hoth .kms id ⟨hno, hid⟩)) j
      · refine removeKeys_total he hl1 (fun k' y hy => ?_) j
        by_cases hk : k' = .age
        · subst hk
          rw [b3, ei] at hy
          refine hoth .age id hid .age y (List.mem_filter.1 hy).1 (fun e => ?_)
          have hy2 := (List.mem_filter.1 hy).2
          cases e
          obtain ⟨_, before, after, h, _⟩ := hid
          rw [h] at hy2
          simp at hy2
        · rw [b2 k' hk, ei] at hy
          exact hoth .age id hid k' y hy (fun e => hk (by cases e; rfl))
    obtain ⟨hl2, c2, c3, c4⟩ := removeKeys_left he hl1 h3
    have hids := removed_ids he hl h2 h3
    rw [ei] at hids
    obtain ⟨key', hk', hw'⟩ := hl2.wrap
    obtain ⟨d', hd'⟩ : ∃ d', P.env.decryptAny g2.metadata.integration = .ok (some d') := by
      by_cases hany : ∃ k id, FirstPresent f.metadata.integration a.keys k id
      · obtain ⟨k, id, hfirst⟩ := hany
        refine (retrieve_iff_owns he hk' hw' (fun hne => ?_) (fun id' hid' => ?_)).2 ⟨k0, id0, (hids k0 id0).2 ⟨hid0, hnot0⟩, hown0⟩
        · refine age_readable (decryptAny_of_retrieve.1 hret) (fun e => ?_)
          obtain ⟨y, hy⟩ := List.exists_mem_of_ne_nil _ hne
          have := ((hids .age y).1 hy).1
          rw [e] at this
          cases this
        · have hm := (hids .kms id').1 hid'
          refine ⟨?_, hopens id' hm.1⟩
          have hcan : CanWrap P.env.toKeyEnv .kms id' := hoth k id hfirst .kms id' hm.1 (fun e => by
            cases e
            obtain ⟨_, _, before, after, h, _⟩ := hfirst
            exact hm.2 (by rw [IntegrationKeys.of, h]; simp))
          obtain ⟨ps, _, hps, _⟩ := hcan
          exact ⟨ps, hps⟩
      · have hno : ∀ y ∈ a.keys.age, y ∉ keyIds f.metadata.integration .age := by
          rcases exists_firstIn (present := keyIds f.metadata.integration .age) (given := a.keys.age) with h | ⟨id, hid⟩
          · exact h
          · exact absurd ⟨.age, id, hid⟩ hany
        have hno' : ∀ y ∈ a.keys.kms, y ∉ keyIds f.metadata.integration .kms := by
          rcases exists_firstIn (present := keyIds f.metadata.integration .kms) (given := a.keys.kms) with h | ⟨id, hid⟩
          · exact h
          · exact absurd ⟨.kms, id, hno, hid⟩ hany
        have e1 := b4 (by rw [ei]; exact hno)
        subst e1
        have e2 := c4 (by rw [ei]; exact hno')
        subst e2
        exact ⟨d, by rw [ei]; exact decryptAny_of_retrieve.1 hret⟩
    have ep : g2.metadata.partialEncryption = f.metadata.partialEncryption := by rw [hl2.metadata, hmd]; rfl
    obtain ⟨f', j'', h4⟩ := encryptWith_total (F := x.doc.F) (Fo := x.doc.F) he hC (docRep_lawful x) (g := g2) (key := d')
      (sm := none) (sc := none) (by rw [hl2.map]; exact hpl.read) (by rw [ep]; exact hh.fits) (fun t ht => nomatch ht) j'
    have h5 : g2.encrypt x.doc.F P.env j' = .ok (f', j'') := by
      unfold DecFile.encrypt
      rw [decryptAny_of_retrieve.2 hd']
      exact h4
    exact ⟨_, run_removeKeys_ok.2 ⟨⟨config, hc⟩, x, s, f, g, g1, g2, j, j', j'', f', hx, hs, hf, hg, h2, h3, h5,
      .inl ⟨rfl, _, rfl, hd _, rfl⟩⟩⟩

/-! ## C49 -/

/-- **C49.** `rops encrypt` does not notice that a file is encrypted already: with acceptable flags
and keys that the process can encrypt for it succeeds on every text of an encrypted file, in each
format. -/
theorem C49_succeeds {P : Proc} (hC : P.env.C.Total) (hT : FiniteTexts (P.T .json)) {l : EncryptLine} {config : Config}
    (hc : P.retrieveConfig l.input.config = .ok config) {x : Fmt} (hx : getFormat l.input.file l.input.format = .ok x)
    {f : EncFile x.doc.F} (hs : InputText P l.input.file (EncFile.toText (P.T x) P.env.C f))
    (hb : (P.T x).parse (EncFile.toText (P.T x) P.env.C f) = some (x.doc.order (f.toDoc x.doc P.env.C)))
    (hd : Deliverable P l.inPlace l.input.file)
    {m' : RMap EncLeaf}
    (hread : x.doc.F.encToInternal P.env.C P.env.rx (Resolved.ofConfig f.metadata.partialEncryption) f.map = .ok m')
    (hmac : l.macOnlyEncrypted = true → l.setting ≠ none) (hplace : l.inPlace = true → l.input.file ≠ none)
    (hkey : ∃ k id, id ∈ encryptKeys P.env.rx config l k)
    (hcan : ∀ k, ∀ id ∈ encryptKeys P.env.rx config l k, CanWrap P.env.toKeyEnv k id) (i : Nat) :
    ∃ es, P.run (.encrypt l) i = (es, .ok ()) := by
  obtain ⟨m, hm⟩ := toDoc_read hread
  exact (C67_encrypt_iff hC hT hc hx hs hd (fun k id hid => .inl (hcan k id hid)) i).2
    ⟨fun h => hmac h.1 h.2, fun h => hplace h.1 h.2, ⟨_, m, hb, hm⟩, hkey, hcan⟩

/-! ## Examples -/

/-- The builder of `rops encrypt --age pk2 --aws-kms work.arn:aws:kms:eu-1:123:key/ab`. -/
def sharedBuilder : Builder Format.json := { Toy.smallBuilder with kmsKeyIds := [sampleArn] }

/-- The process of someone with AWS credentials. -/
def kmsProc (content : Str) : Proc := { Toy.proc Toy.rule content [] with env := Toy.env.withHost kmsHost }

/-- A file for two age keys and a KMS key. -/
theorem shared_file : ∃ (f : EncFile Format.json) (m' : RMap EncLeaf),
    EncFile.ofText Toy.jsonText Toy.docOps Toy.env.C (EncFile.toText Toy.jsonText Toy.env.C f) = some f ∧
    Holding Toy.env jsonRep f (Toy.env.newKey 0) [(c!"a", .leaf (.string c!"x")), (c!"b_plain", .leaf (.boolean true))] m' ∧
    Toy.env.retrieveDataKey f.metadata = .ok (Toy.env.newKey 0) ∧
    (Toy.env.withHost kmsHost).retrieveDataKey f.metadata = .ok (Toy.env.newKey 0) ∧
    keyIds f.metadata.integration .age = [c!"pk2", c!"pk1"] ∧ keyIds f.metadata.integration .kms = [sampleArn] := by
  have hc : (match sharedBuilder.encrypt (Toy.env.withHost kmsHost) 0 with | .ok _ => true | .error _ => false) = true := by
    decide +kernel
  cases h : sharedBuilder.encrypt (Toy.env.withHost kmsHost) 0 with
  | error e => rw [h] at hc; cases hc
  | ok r =>
    obtain ⟨f, j⟩ := r
    have he := Toy.env_laws.withHost kmsHost
    obtain ⟨m', _, _, hh, _⟩ := holding_of_builder (b := sharedBuilder) he Format.json_lawful rfl Toy.small_fits h
    have hw : EncWritable Toy.docOps Toy.env.C f.metadata :=
      C43_created (O := Toy.docOps) (b := sharedBuilder) he Toy.env_clock Format.json_lawful rfl Toy.small_fits
        (fun _ _ => rfl) (fun id hid => by
          have e : id = sampleArn := by simpa [sharedBuilder] using hid
          subst e
          show KeyArn.parse Toy.docOps.arn _ = _
          decide +kernel) (fun _ h => by cases h; rfl) h
    obtain ⟨_, _, _, im, _, _, _, h3, _, _, h6⟩ := Builder.encrypt_ok h
    have ha : keyIds f.metadata.integration .age = [c!"pk2", c!"pk1"] := by
      rw [h6, (intoMetadata_ok h3).2.2.1]; rfl
    have hk : keyIds f.metadata.integration .kms = [sampleArn] := by
      rw [h6, (intoMetadata_ok h3).2.2.2.1]; rfl
    have hh0 : Holding Toy.env jsonRep f (Toy.env.newKey 0) _ m' := hh.ofHost
    refine ⟨f, m', ?_, hh0, ?_, ?_, ha, hk⟩
    · rw [C44_json_encryption Toy.docOps_laws Toy.jsonText_laws (f := f) hh0 hw trivial]
      rfl
    · exact retrieve_of_identity (k := c!"k1") (ks := [c!"k1"]) Toy.env_laws hh0.key_length hh0.units rfl (.head _) (by
        rw [ha]; decide)
    · exact retrieve_of_identity (k := c!"k1") (ks := [c!"k1"]) he hh.key_length hh.units rfl (.head _) (by
        rw [ha]; decide)

theorem kmsHost_wraps (k : Kind) (id : k.Id) (h : k = .kms → HEq id sampleArn) :
    CanWrap (Toy.env.withHost kmsHost).toKeyEnv k id := by
  cases k with
  | age => exact fun d i => ⟨_, rfl⟩
  | kms =>
    cases eq_of_heq (h rfl)
    refine ⟨[⟨c!"work", c!"a", c!"b"⟩], ⟨c!"work", c!"a", c!"b"⟩, by decide +kernel, ⟨rfl, [], [], rfl, fun _ h => nomatch h⟩, fun d i => ⟨_, rfl⟩⟩

-- `rops keys remove --age pk2 a.json`: fails for the owner of k1 without AWS credentials, succeeds
-- with them
example : ∃ (f : EncFile Format.json),
    let a : KeyArgs := { keys := { age := [c!"pk2"], kms := [] }, format := none, file := c!"a.json" }
    let s := EncFile.toText Toy.jsonText Toy.env.C f
    ((Toy.proc Toy.rule s []).run (.removeKeys a) 50).2 ≠ .ok () ∧
    ∃ es, (kmsProc s).run (.removeKeys a) 50 = (es, .ok ()) := by
  obtain ⟨f, m', h1, hh, hr, hr', ha, hk⟩ := shared_file
  refine ⟨f, ?_⟩
  intro a s
  constructor
  · refine C67_remove_blocked (P := Toy.proc Toy.rule _ []) (x := .json) Toy.env_laws (by decide +kernel) (Toy.proc_input _ _ _) h1
      hh (k := .age) (id := c!"pk2") ⟨by rw [ha]; simp, [], [], rfl, fun _ h => nomatch h⟩ (k' := .kms) (id' := sampleArn)
      (by rw [hk]; simp) (fun e => nomatch e) (C67_no_credentials fun ps hps => ?_) 50
    have : ps = [] := by
      have h0 : retrievePrivateKeys AwsPrivateKey.parse Toy.env.host c!"aws_kms" = .ok [] := by decide +kernel
      exact Except.ok.inj (hps.symm.trans h0)
    subst this
    exact fun _ h => nomatch h
  · have hw : ∀ k, ∀ id ∈ keyIds f.metadata.integration k, CanWrap (Toy.env.withHost kmsHost).toKeyEnv k id := by
      intro k id hid
      refine kmsHost_wraps k id fun e => ?_
      subst e
      rw [hk] at hid
      simp only [List.mem_singleton] at hid
      rw [hid]
    refine (C67_remove_iff (P := kmsProc _) (a := a) (x := .json) (Toy.env_laws.withHost kmsHost) Toy.cipher_total (config := [Toy.creationRule])
      (Toy.proc_config s []) (by decide +kernel) (.inl ⟨_, _, rfl, rfl, rfl, utf8?_utf8 s⟩) (fun _ => rfl) h1 (hh.withHost kmsHost) hr'
      (fun k id hid => .inl (hw k id hid)) ?_ 50).2 ⟨⟨.age, c!"pk1", by rw [ha]; simp, by decide, [c!"k1"], rfl, c!"k1", .head _, rfl⟩, fun _ _ _ k' id' hid' _ => hw k' id' hid'⟩
    intro id hid ps p _ _ c d i b hb
    have hb : KmsAnswer.blob (utf8 id.arn.keyId ++ d) = .blob b := hb
    cases hb
    refine ⟨_, show (if (utf8 id.arn.keyId).isPrefixOf (utf8 id.arn.keyId ++ d) then KmsAnswer.blob _ else .error) = _ from if_pos (by simp [List.isPrefixOf_iff_prefix])⟩

-- `rops keys remove --age pk1 a.json` by the owner of k1 fails
example : ∃ (f : EncFile Format.json),
    let a : KeyArgs := { keys := { age := [c!"pk1"], kms := [] }, format := none, file := c!"a.json" }
    ((Toy.proc Toy.rule (EncFile.toText Toy.jsonText Toy.env.C f) []).run (.removeKeys a) 50).2 ≠ .ok () := by
  obtain ⟨f, _, m', hb, _, h1, hh, _, _⟩ := Toy.encrypted []
  refine ⟨f, C67_remove_own (P := Toy.proc Toy.rule _ []) (x := .json) Toy.env_laws (by decide +kernel) (Toy.proc_input _ _ _) h1
    hh ?_ 50⟩
  obtain ⟨_, _, _, im, _, _, _, h3, _, _, h6⟩ := Builder.encrypt_ok hb
  intro k id hid hn ho
  cases k with
  | age =>
    obtain ⟨ks, hks, s, hs, e⟩ := ho
    have h0 : retrievePrivateKeys (Age.parsePrivateKey Toy.env.A) Toy.env.host c!"age" = .ok [c!"k1"] := rfl
    cases Except.ok.inj (hks.symm.trans h0)
    have hs : s = c!"k1" := List.mem_singleton.1 hs
    subst hs
    subst e
    exact hn (.head _)
  | kms =>
    rw [h6, (intoMetadata_ok h3).2.2.2.1] at hid
    cases hid

-- `rops keys add --age pk3 a.json` by the owner of k1 succeeds, with a KMS key it fails
example : ∃ (f : EncFile Format.json),
    let P := Toy.proc Toy.rule (EncFile.toText Toy.jsonText Toy.env.C f) []
    (∃ es, P.run (.addKeys { keys := { age := [c!"pk3"], kms := [] }, format := none, file := c!"a.json" }) 50 = (es, .ok ())) ∧
    ¬ ∃ es, P.run (.addKeys { keys := { age := [], kms := [sampleArn] }, format := none, file := c!"a.json" }) 50 = (es, .ok ()) := by
  obtain ⟨f, _, m', hb, _, h1, hh, _, hr⟩ := Toy.encrypted []
  have hn : NeverWraps Toy.env.toKeyEnv .kms sampleArn := by
    refine C67_no_credentials fun ps hps => ?_
    have h0 : retrievePrivateKeys AwsPrivateKey.parse Toy.env.host c!"aws_kms" = .ok [] := by decide +kernel
    cases Except.ok.inj (hps.symm.trans h0)
    exact fun _ h => nomatch h
  refine ⟨f, ?_, ?_⟩
  · refine (C67_add_iff (P := Toy.proc Toy.rule _ []) (x := .json) Toy.env_laws (Toy.proc_config _ _) (by decide +kernel) (Toy.proc_input _ _ _)
      (fun _ => rfl) h1 hh ?_ 50).2 ⟨⟨_, hr⟩, ?_, fun _ => ⟨[c!"k1"], rfl⟩⟩
    all_goals
      intro k id hid
      cases k with
      | age => first | exact .inl fun d i => ⟨_, rfl⟩ | exact fun d i => ⟨_, rfl⟩
      | kms => cases hid
  · intro hrun
    have h2 := (C67_add_iff (P := Toy.proc Toy.rule _ []) (x := .json) Toy.env_laws (Toy.proc_config _ _) (by decide +kernel) (Toy.proc_input _ _ _)
      (fun _ => rfl) h1 hh (by
        intro k id hid
        cases k with
        | age => cases hid
        | kms =>
          have e : id = sampleArn := by simpa [IntegrationKeys.of] using hid
          subst e
          exact .inr hn) 50).1 hrun
    obtain ⟨ps, p, hps, hp, hw⟩ := h2.2.1 .kms sampleArn (.head _)
    obtain ⟨b, hb⟩ := hw [] 0
    exact hn ps p hps hp [] 0 b hb

-- `rops refresh -i a.json` succeeds
example : ∃ (f : EncFile Format.json) (es : List Event),
    (Toy.proc Toy.rule (EncFile.toText Toy.jsonText Toy.env.C f) []).run (.refresh Toy.placeLine) 50 = (es, .ok ()) := by
  obtain ⟨f, _, m', hb, _, h1, hh, _, hr⟩ := Toy.encrypted []
  have hw : ∀ k id, id ∈ IntegrationKeys.of Toy.creationRule.keys k → CanWrap Toy.env.toKeyEnv k id := by
    intro k id hid
    cases k with
    | age => exact fun d i => ⟨_, rfl⟩
    | kms => cases hid
  have hrule : ruleFor Toy.env.rx [Toy.creationRule] Toy.placeLine.input.file = some Toy.creationRule := by decide +kernel
  refine ⟨f, (C67_refresh_iff (P := Toy.proc Toy.rule _ []) (l := Toy.placeLine) (x := .json) (config := [Toy.creationRule]) Toy.env_laws Toy.cipher_total (Toy.proc_config _ _)
    (by decide +kernel) (Toy.proc_input _ _ _) (fun _ _ _ => rfl) h1 hh ?_ 50).2 ⟨by decide, fun r hr' => .inr ⟨⟨_, hr⟩, ?_⟩⟩⟩
  · intro k id hid
    have hid : id ∈ IntegrationKeys.of (ruleKeys (ruleFor Toy.env.rx [Toy.creationRule] Toy.placeLine.input.file)) k := hid
    rw [hrule] at hid
    exact .inl (hw k id hid)
  · have e := Option.some.inj (hr'.symm.trans hrule)
    subst e
    exact ⟨⟨.age, c!"pk1", .head _⟩, hw⟩

-- `rops encrypt -i --age pk2 a.json` succeeds, with `--aws-kms` and without credentials it fails
example :
    (∃ es, (Toy.strictProc Toy.rule (Toy.mapText Toy.small) []).run (.encrypt Toy.encryptLine) 50 = (es, .ok ())) ∧
    ¬ ∃ es, (Toy.strictProc Toy.rule (Toy.mapText Toy.small) []).run
      (.encrypt { Toy.encryptLine with keys := { age := [], kms := [sampleArn] } }) 50 = (es, .ok ()) := by
  have hrule : ruleFor Toy.env.rx [Toy.creationRule] (some c!"a.json") = some Toy.creationRule := by decide +kernel
  have hp : Toy.strictText.parse (Toy.mapText Toy.small) = some Toy.small := by
    have : Toy.jsonText.parse (Toy.mapText Toy.small) = some Toy.small := Toy.jsonText_laws.parse_render Toy.small trivial
    simp only [Toy.strictText, this]
    rfl
  have hn : NeverWraps Toy.env.toKeyEnv .kms sampleArn := by
    refine C67_no_credentials fun ps hps => ?_
    have h0 : retrievePrivateKeys AwsPrivateKey.parse Toy.env.host c!"aws_kms" = .ok [] := by decide +kernel
    cases Except.ok.inj (hps.symm.trans h0)
    exact fun _ h => nomatch h
  have hcfg : (Toy.strictProc Toy.rule (Toy.mapText Toy.small) []).retrieveConfig none = .ok [Toy.creationRule] :=
    Toy.proc_config (Toy.mapText Toy.small) []
  constructor
  · have hk : ∀ k, ∀ id ∈ encryptKeys Toy.env.rx [Toy.creationRule] Toy.encryptLine k, CanWrap Toy.env.toKeyEnv k id := by
      intro k id hid
      cases k with
      | age => exact fun d i => ⟨_, rfl⟩
      | kms =>
        unfold encryptKeys at hid
        rw [show Toy.encryptLine.input.file = some c!"a.json" from rfl, hrule] at hid
        cases hid
    exact (C67_encrypt_iff (P := Toy.strictProc Toy.rule (Toy.mapText Toy.small) []) (l := Toy.encryptLine) (x := .json)
      Toy.cipher_total Toy.strict_finite hcfg (by decide +kernel) (Toy.proc_input Toy.rule _ []) (fun _ _ _ => rfl)
      (fun k id hid => .inl (hk k id hid)) 50).2 ⟨by decide, by decide, ⟨_, _, hp, rfl⟩, ⟨.age, c!"pk2", .head _⟩, hk⟩
  · intro h
    have h2 := (C67_encrypt_iff (P := Toy.strictProc Toy.rule (Toy.mapText Toy.small) [])
      (l := { Toy.encryptLine with keys := { age := [], kms := [sampleArn] } }) (x := .json)
      Toy.cipher_total Toy.strict_finite hcfg (by decide +kernel) (Toy.proc_input Toy.rule _ []) (fun _ _ _ => rfl) (by
        intro k id hid
        cases k with
        | age => exact .inl fun d i => ⟨_, rfl⟩
        | kms =>
          have hid : id ∈ [sampleArn] ++ IntegrationKeys.of (ruleKeys (ruleFor Toy.env.rx [Toy.creationRule] (some c!"a.json"))) .kms := hid
          rw [hrule] at hid
          have e : id = sampleArn := by simpa [IntegrationKeys.of, ruleKeys, Toy.creationRule] using hid
          subst e
          exact .inr hn) 50).1 h
    obtain ⟨ps, p, hps, hp, hw⟩ := h2.2.2.2.2 .kms sampleArn (.head _)
    obtain ⟨b, hb⟩ := hw [] 0
    exact hn ps p hps hp [] 0 b hb

-- `rops encrypt -i --age pk2 a.json` on an encrypted file succeeds
example : ∃ (f : EncFile Format.json) (es : List Event),
    (Toy.strictProc Toy.rule (EncFile.toText Toy.jsonText Toy.env.C f) []).run (.encrypt Toy.encryptLine) 50 = (es, .ok ()) := by
  obtain ⟨f, _, m', hb, _, h1, hh, _, hr⟩ := Toy.encrypted []
  have hrule : ruleFor Toy.env.rx [Toy.creationRule] (some c!"a.json") = some Toy.creationRule := by decide +kernel
  refine ⟨f, C49_succeeds (P := Toy.strictProc Toy.rule (EncFile.toText Toy.jsonText Toy.env.C f) []) (l := Toy.encryptLine)
    (x := .json) (f := f) Toy.cipher_total Toy.strict_finite (config := [Toy.creationRule])
    (show (Toy.proc Toy.rule (EncFile.toText Toy.jsonText Toy.env.C f) []).retrieveConfig none = _ from Toy.proc_config _ _)
    (by decide +kernel) (Toy.proc_input Toy.rule _ []) ?_ (fun _ _ _ => rfl) hh.read (fun h => nomatch h) (fun _ h => nomatch h)
    ⟨.age, c!"pk2", .head _⟩ ?_ 50⟩
  · have hc : (match Toy.smallBuilder.encrypt Toy.env 0 with
        | .error _ => false
        | .ok (f, _) => match Format.json.toInternal (f.toDoc .json Toy.env.C) with
          | .error _ => false
          | .ok m => (Format.json.ofInternal m).isSome) = true := by decide +kernel
    rw [hb] at hc
    simp only at hc
    have h3 : Toy.jsonText.parse (Toy.mapText (f.toDoc .json Toy.env.C)) = some (f.toDoc .json Toy.env.C) :=
      Toy.jsonText_laws.parse_render _ trivial
    show Toy.strictText.parse (Toy.mapText (f.toDoc .json Toy.env.C)) = some (f.toDoc .json Toy.env.C)
    simp only [Toy.strictText, h3]
    split at hc
    · cases hc
    · rename_i m hm
      rw [hm]
      simp only [hc, if_true]
  · intro k id hid
    cases k with
    | age => exact fun d i => ⟨_, rfl⟩
    | kms =>
      have hid : id ∈ IntegrationKeys.of Toy.encryptLine.keys .kms ++ IntegrationKeys.of (ruleKeys (ruleFor Toy.env.rx [Toy.creationRule] (some c!"a.json"))) .kms := hid
      rw [hrule] at hid
      cases hid

end Rops.Props
