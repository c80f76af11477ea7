import Verif.Spec.Injected
import Verif.Props.Edits
import Verif.Props.KeyOps
import Verif.Lemmas.Leakage
import Verif.Props.Changes
/-!
# C66: recipients and settings are not authenticated
-/

namespace Rops.Props
open Rops Spec

variable {env : Env} {F Fo : Format} {rep rep' : Value → Prop} {f : EncFile F} {key d : Bytes} {m : RMap Value}
  {m' : RMap EncLeaf}

theorem findDataKey_foreign {env : KeyEnv} {ks : List env.A.Identity}
    (hks : retrievePrivateKeys (Age.parsePrivateKey env.A) env.host c!"age" = .ok ks) (A B : Units .age) (u : IUnit .age)
    (hu : ∀ k ∈ ks, env.A.toPublic k ≠ u.keyId) :
    env.findDataKey .age (A ++ [u] ++ B) = env.findDataKey .age (A ++ B) := by
  have h1 : env.decryptDataKey .age u.keyId u.enc = .ok none := by
    unfold KeyEnv.decryptDataKey Age.decryptDataKey
    simp only [hks]
    rw [List.find?_eq_none.2 (by simpa using hu)]
  induction A with
  | nil => simp [KeyEnv.findDataKey, h1]
  | cons a r ih =>
    simp only [List.cons_append, KeyEnv.findDataKey]
    split
    · exact ih
    · rfl
    · rfl

theorem validateMac_units (im : IntegrationMetadata) {m : RMap Value} {md : Metadata Mac} :
    env.validateMac m md = env.validateMac m { md with integration := im } := rfl

/-- **C66.** Whoever can change a file can insert a unit with an age recipient of their choice, with anything in
place of the wrapped data key. Those who can decrypt the file do not notice: decryption has the same result. -/
theorem C66_unnoticed {ks : List env.A.Identity} (hks : HasIdentities env ks) (f : EncFile F) {A B : Units .age}
    (hA : f.metadata.integration.age = A ++ B) (u : IUnit .age) (hu : ∀ k ∈ ks, env.A.toPublic k ≠ u.keyId) :
    EncFile.decrypt Fo env (withAgeUnits f (A ++ [u] ++ B)) =
      (f.decrypt Fo env).map (fun g => withAgeUnits g (A ++ [u] ++ B)) ∧
    EncFile.decryptAndSave Fo env (withAgeUnits f (A ++ [u] ++ B)) =
      (f.decryptAndSave Fo env).map (fun gp => (withAgeUnits gp.1 (A ++ [u] ++ B), gp.2)) := by
  have h1 : env.retrieveDataKey (withAgeUnits f (A ++ [u] ++ B)).metadata = env.retrieveDataKey f.metadata := by
    unfold Env.retrieveDataKey KeyEnv.decryptAny
    simp only [withAgeUnits, findDataKey_foreign (env := env.toKeyEnv) hks A B u hu, ← hA]
  obtain ⟨map, md⟩ := f
  unfold EncFile.decrypt EncFile.decryptAndSave Env.decryptMetadata
  rw [h1]
  cases env.retrieveDataKey md with
  | error e => exact ⟨rfl, rfl⟩
  | ok key =>
    simp only [withAgeUnits]
    cases EncMac.decrypt env.C key md.lastModified md.mac with
    | none => exact ⟨rfl, rfl⟩
    | some p =>
      obtain ⟨mac, saved⟩ := p
      simp only
      cases F.encToInternal env.C env.rx (Resolved.ofConfig md.partialEncryption) map with
      | error e => exact ⟨rfl, rfl⟩
      | ok m' =>
        simp only
        constructor
        · cases RMap.decrypt (env.decEnv key) m' with
          | error e => rfl
          | ok m =>
            simp only [validateMac_units md.integration (md := ⟨⟨md.integration.kms, A ++ [u] ++ B⟩, _, _, _, _⟩)]
            split
            · rfl
            · cases Fo.ofInternal m <;> rfl
        · cases RMap.decryptAndSave (env.decEnv key) m' with
          | error e => rfl
          | ok mn =>
            simp only [validateMac_units md.integration (md := ⟨⟨md.integration.kms, A ++ [u] ++ B⟩, _, _, _, _⟩)]
            split
            · rfl
            · cases Fo.ofInternal mn.1 <;> rfl

/-- What several removals do, without anything known about the units before. -/
theorem removeKeys_rotates {env : Env} {F : Format} {k : Kind} {ids : List k.Id} {g g' : DecFile F} {i j : Nat}
    (h : g.removeKeys env k ids i = .ok (g', j)) (hn : ∀ k, (keyIds g.metadata.integration k).Nodup) :
    g'.map = g.map ∧ g'.metadata = { g.metadata with integration := g'.metadata.integration } ∧
    (g' = g ∨ ∃ n, AllWrap env.A env.K g'.metadata.integration (env.newKey n)) ∧
    (∀ k', (keyIds g'.metadata.integration k').Nodup) ∧
    (∀ id, id ∈ keyIds g'.metadata.integration k ↔ id ∈ keyIds g.metadata.integration k ∧ id ∉ ids) ∧
    (∀ k', k' ≠ k → keyIds g'.metadata.integration k' = keyIds g.metadata.integration k') := by
  induction ids generalizing g i with
  | nil =>
    unfold DecFile.removeKeys at h
    cases h
    exact ⟨rfl, rfl, .inl rfl, hn, by simp, fun _ _ => rfl⟩
  | cons id r ih =>
    unfold DecFile.removeKeys at h
    split at h
    · cases h
    · rename_i o g1 i1 h1
      cases o with
      | none =>
        have hid := (C24_absent_iff g k id i).1 ⟨_, _, h1⟩
        rw [C24_absent_unchanged g k id i hid] at h1
        cases h1
        obtain ⟨a1, a2, a3, a4, a5, a6⟩ := ih h hn
        refine ⟨a1, a2, a3, a4, fun x => ?_, a6⟩
        rw [a5, List.mem_cons]
        constructor
        · rintro ⟨h1, h2⟩; exact ⟨h1, by rintro (rfl | h3); exact hid h1; exact h2 h3⟩
        · rintro ⟨h1, h2⟩; exact ⟨h1, fun h3 => h2 (.inr h3)⟩
      | some u =>
        obtain ⟨_, _, b1, b2, b3, b4, b5, b6, b7, _⟩ := C23_rotation g g1 hn k id u i i1 h1
        obtain ⟨a1, a2, a3, a4, a5, a6⟩ := ih h b7
        refine ⟨a1.trans b1, by rw [a2, b2], .inr ?_, a4, fun x => ?_, fun k' hk' => (a6 k' hk').trans (b5 k' hk')⟩
        · rcases a3 with rfl | a3
          · exact ⟨i, b6⟩
          · exact a3
        · rw [a5, b3, (hn k).mem_erase_iff, List.mem_cons]
          constructor
          · rintro ⟨⟨h1, h2⟩, h3⟩; exact ⟨h2, by rintro (h4 | h4); exact h1 h4; exact h3 h4⟩
          · rintro ⟨h1, h2⟩; exact ⟨⟨fun h => h2 (.inl h), h1⟩, fun h => h2 (.inr h)⟩

/-- What the inserted recipient can do with a file: they decrypt it to the map. -/
def OpenedBy (env : Env) {F : Format} (f : EncFile F) (id : Str) (m : RMap Value) : Prop :=
  ∀ (host : Host) (ks : List env.A.Identity) (k : env.A.Identity),
    retrievePrivateKeys (Age.parsePrivateKey env.A) host c!"age" = .ok ks → k ∈ ks → env.A.toPublic k = id →
    ∃ g : DecFile F, f.decrypt F (env.withHost host) = .ok g ∧ F.toInternal g.map = .ok m

/-- **C66.** When later a key is removed by `rops keys remove`, the inserted recipient, who never had access, gets
it: the command writes a file which they decrypt. -/
theorem C66_keys_remove {P : Proc} (he : EnvLaws P.env) {a : KeyArgs} {i : Nat} {es : List Event}
    (h : P.run (.removeKeys a) i = (es, .ok ())) {x : Fmt} (hx : getFormat (some a.file) a.format = .ok x)
    {f : EncFile x.doc.F} {key : Bytes} {m : RMap Value} {m' : RMap EncLeaf} (hh : Holding P.env (docRep x) f key m m')
    {A B : Units .age} (hA : f.metadata.integration.age = A ++ B) {u : IUnit .age}
    (hnew : u.keyId ∉ keyIds f.metadata.integration .age)
    {ks : List P.env.A.Identity} (hks : HasIdentities P.env ks) (hu : ∀ k ∈ ks, P.env.A.toPublic k ≠ u.keyId)
    {s : Str} (hs : InputText P (some a.file) s)
    (hf : EncFile.ofText (P.T x) P.O P.env.C s = some (withAgeUnits f (A ++ [u] ++ B)))
    (hkeep : u.keyId ∉ a.keys.age)
    (hrem : (∃ id ∈ a.keys.age, id ∈ keyIds f.metadata.integration .age) ∨
      ∃ id ∈ a.keys.kms, id ∈ keyIds f.metadata.integration .kms) :
    ∃ f' : EncFile x.doc.F, Delivered P true (some a.file) (EncFile.toText (P.T x) P.env.C f') es ∧
      OpenedBy P.env f' u.keyId m := by
  obtain ⟨_, x1, s1, f1, g, g1, g2, j, j', j'', f', h1, h2, h3, h4, h5, h6, h7, h8⟩ := run_removeKeys_ok.1 h
  rw [hx] at h1
  cases h1
  cases inputText_unique hs h2
  rw [hf] at h3
  cases h3
  refine ⟨f', h8, ?_⟩
  -- what the tampered file decrypts to
  rw [(C66_unnoticed hks f hA u hu).1] at h4
  cases hd0 : f.decrypt x.doc.F P.env with
  | error e => rw [hd0] at h4; cases h4
  | ok g0 =>
    rw [hd0] at h4
    cases h4
    obtain ⟨d0, _, _, hr0, _⟩ := decrypt_ok_iff.1 hd0
    obtain ⟨g0', hd0', hp0, hmd0, _⟩ := decrypt_of_holding he (docRep_lawful x) hh hh.fits.holds hr0
    rw [hd0] at hd0'
    cases hd0'
    have hint : g0.metadata.integration = f.metadata.integration := by rw [hmd0]; rfl
    have hkage : keyIds (withAgeUnits g0 (A ++ [u] ++ B)).metadata.integration .age =
        A.map (·.keyId) ++ [u.keyId] ++ B.map (·.keyId) := by
      simp [withAgeUnits, keyIds, IntegrationMetadata.units]
    have hkkms : keyIds (withAgeUnits g0 (A ++ [u] ++ B)).metadata.integration .kms =
        keyIds f.metadata.integration .kms := by
      simp [withAgeUnits, keyIds, IntegrationMetadata.units, hint]
    have hfage : keyIds f.metadata.integration .age = A.map (·.keyId) ++ B.map (·.keyId) := by
      simp [keyIds, IntegrationMetadata.units, hA]
    have hn : ∀ k, (keyIds (withAgeUnits g0 (A ++ [u] ++ B)).metadata.integration k).Nodup := by
      intro k
      cases k with
      | kms => rw [hkkms]; exact hh.ids .kms
      | age =>
        have h1 := hh.ids .age
        rw [hfage] at h1 hnew
        rw [hkage]
        simp only [List.mem_append, not_or] at hnew
        rw [List.append_assoc, List.singleton_append]
        rw [List.nodup_append] at h1 ⊢
        obtain ⟨n1, n2, n3⟩ := h1
        refine ⟨n1, List.nodup_cons.2 ⟨hnew.2, n2⟩, fun a ha b hb => ?_⟩
        rcases List.mem_cons.1 hb with rfl | hb
        · rintro rfl; exact hnew.1 ha
        · exact n3 a ha b hb
    obtain ⟨a1, a2, a3, a4, a5, a6⟩ := removeKeys_rotates h5 hn
    obtain ⟨b1, b2, b3, b4, b5, b6⟩ := removeKeys_rotates h6 a4
    have huage : u.keyId ∈ keyIds g2.metadata.integration .age := by
      rw [b6 .age (by simp), a5, hkage]
      exact ⟨by simp, hkeep⟩
    obtain ⟨n, hw⟩ : ∃ n, AllWrap P.env.A P.env.K g2.metadata.integration (P.env.newKey n) := by
      rcases b3 with b3 | b3
      rotate_left
      · exact b3
      rcases a3 with a3 | a3
      rotate_left
      · rw [b3]; exact a3
      exfalso
      rcases hrem with ⟨id, hid, hid'⟩ | ⟨id, hid, hid'⟩
      · have := (a5 id)
        rw [a3, hkage] at this
        rw [hfage] at hid'
        exact (this.1 (by simp only [List.mem_append] at hid' ⊢; rcases hid' with h | h <;> simp [h])).2 hid
      · have := (b5 id)
        rw [b3, a3, hkkms] at this
        exact (this.1 hid').2 hid
    have e1 : g2.metadata.partialEncryption = f.metadata.partialEncryption := by
      rw [b2, a2]; show g0.metadata.partialEncryption = _; rw [hmd0]; rfl
    have e2 : g2.metadata.macOnlyEncrypted = g0.metadata.macOnlyEncrypted := by rw [b2, a2]; rfl
    have e3 : g2.metadata.mac = g0.metadata.mac := by rw [b2, a2]; rfl
    have e4 : g0.metadata.partialEncryption = f.metadata.partialEncryption := by rw [hmd0]; rfl
    unfold DecFile.encrypt at h7
    cases hr : P.env.retrieveDataKey g2.metadata with
    | error e => rw [hr] at h7; cases h7
    | ok d =>
      rw [hr] at h7
      cases retrieve_of_allWrap he (he.key_length n) hw hr
      obtain ⟨m'', i1, hh', hmd, _⟩ := holding_of_encryptWith he (docRep_lawful x) (g := g2) (m := m)
        ⟨by rw [b1, a1]; exact hp0.read, by rw [e1, e2, e3, ← e4]; exact hp0.mac⟩ (by rw [e1]; exact hh.fits) (he.key_length n) hw b4
        (sm := none) (sc := none) (fun t ht => nomatch ht) (fun s hs => nomatch hs) h7
      intro host ks' k hks' hk hid
      have hr' := retrieve_of_identity (he.withHost host) (md := f'.metadata) hh'.key_length hh'.units (k := k) hks' hk
        (by rw [hmd]; show P.env.A.toPublic k ∈ _; rw [hid]; exact huage)
      obtain ⟨g', hg', hp', _⟩ := decrypt_of_holding (he.withHost host) (docRep_lawful x) (hh'.withHost host) hh'.fits.holds hr'
      exact ⟨g', hg', hp'.read⟩

/-! ## Settings -/

theorem coveredBytes_agree {rx : RegexMatch} {cfg cfg2 : Option PartialEncryption} (only : Bool)
    {vs : List (List Str × Value)} (h : ∀ pv ∈ vs, Plain rx cfg2 pv.1 ↔ Plain rx cfg pv.1) :
    coveredBytes rx cfg2 only vs = coveredBytes rx cfg only vs := by
  induction vs with
  | nil => rfl
  | cons a r ih =>
    rw [coveredBytes_cons, coveredBytes_cons, ih fun pv hpv => h pv (.tail _ hpv)]
    simp only [h a (.head _)]

/-- **C66.** Whoever can change a file can replace its partial encryption setting by any other which gives the same
answer for the values present: the file is then as good as one written with the new setting. -/
theorem C66_setting (he : EnvLaws env) (hF : Format.Lawful F rep) (h : Holding env rep f key m m')
    {cfg2 : Option PartialEncryption}
    (hcfg : ∀ pv ∈ leaves m, Plain env.rx cfg2 pv.1 ↔ Plain env.rx f.metadata.partialEncryption pv.1)
    (hkeys : cfg2 ≠ none → KeysAgree cfg2 m) : Holding env rep (withSetting f cfg2) key m m' := by
  have hs : Sealed env.C env.rx key cfg2 m m' := by
    refine ⟨h.sealed.1, h.sealed.2.imp_mem fun a b ha hab => ⟨hab.1, ?_⟩⟩
    have := hcfg a ha
    rcases hab.2 with ⟨h1, h2⟩ | ⟨h1, h2⟩
    · exact .inl ⟨this.2 h1, h2⟩
    · exact .inr ⟨fun h3 => h1 (this.1 h3), h2⟩
  refine ⟨h.key_length, h.units, h.ids, ⟨h.fits.canonical, h.fits.holds, hkeys⟩, ?_, h.written, hs, ?_, h.mac_type, h.mac_sized⟩
  · obtain ⟨x, hx1, hx2⟩ := hF.enc_round_trip env.C he.cipher.name_no_comma env.rx cfg2 m' (encHolds_of_sealed h.fits.holds hs)
    rw [h.written] at hx1
    cases hx1
    exact hx2
  · have := h.mac
    unfold macText at this ⊢
    rw [macInput_eq_covered] at this ⊢
    rw [show (withSetting f cfg2).metadata.partialEncryption = cfg2 from rfl, coveredBytes_agree _ hcfg]
    exact this

/-- **C66.** So everyone who could decrypt the file can decrypt the changed one, to the same map. -/
theorem C66_setting_unnoticed (he : EnvLaws env) (hF : Format.Lawful F rep) (hFo : Format.Lawful Fo rep')
    (h : Holding env rep f key m m') (hm : Holds rep' m) (hr : env.retrieveDataKey f.metadata = .ok d)
    {cfg2 : Option PartialEncryption}
    (hcfg : ∀ pv ∈ leaves m, Plain env.rx cfg2 pv.1 ↔ Plain env.rx f.metadata.partialEncryption pv.1)
    (hkeys : cfg2 ≠ none → KeysAgree cfg2 m) :
    ∃ g g2 : DecFile Fo, f.decrypt Fo env = .ok g ∧ EncFile.decrypt Fo env (withSetting f cfg2) = .ok g2 ∧
      g2.map = g.map ∧ Fo.toInternal g.map = .ok m := by
  obtain ⟨g, h1, h2, _⟩ := decrypt_of_holding he hFo h hm hr
  obtain ⟨g2, h3, h4, _⟩ := decrypt_of_holding he hFo (C66_setting he hF h hcfg hkeys) hm hr
  refine ⟨g, g2, h1, h3, ?_, h2.read⟩
  obtain ⟨k1, n1, m1, a1, a2, a3, _, a4, _⟩ := decrypt_ok_iff.1 h1
  obtain ⟨k2, n2, m2, b1, b2, b3, _, b4, _⟩ := decrypt_ok_iff.1 h3
  rw [h.read] at a2
  rw [(C66_setting he hF h hcfg hkeys).read] at b2
  cases a2
  cases b2
  have : k1 = k2 := by
    have e : env.retrieveDataKey (withSetting f cfg2).metadata = env.retrieveDataKey f.metadata := rfl
    rw [e, a1] at b1
    cases b1
    rfl
  subst this
  rw [a3] at b3
  cases b3
  rw [a4] at b4
  exact (Option.some.inj b4).symm

/-- **C66.** A value which the user then adds by `rops edit`, at a path that the new setting leaves in plaintext, is
in plaintext in the file written, though by the setting the file was encrypted with it would have been encrypted. -/
theorem C66_edit_plaintext {P : Proc} (he : EnvLaws P.env) {a : InputArgs} {i : Nat} {es : List Event}
    (h : P.run (.edit a) i = (es, .ok ())) {x : Fmt} (hx : getFormat a.file a.format = .ok x)
    {f : EncFile x.doc.F} {key : Bytes} {m : RMap Value} {m' : RMap EncLeaf} (hh : Holding P.env (docRep x) f key m m')
    {cfg2 : Option PartialEncryption}
    (hcfg : ∀ pv ∈ leaves m, Plain P.env.rx cfg2 pv.1 ↔ Plain P.env.rx f.metadata.partialEncryption pv.1)
    (hkeys : cfg2 ≠ none → KeysAgree cfg2 m)
    {s : Str} (hs : InputText P a.file s) (hf : EncFile.ofText (P.T x) P.O P.env.C s = some (withSetting f cfg2))
    {edited : x.doc.F.Map} (hed : Edited (P.T x).parse edited P.editor) {m1 : RMap Value}
    (ho : x.doc.F.toInternal edited = .ok m1) (hfit : Fits P.env.fl (docRep x) cfg2 m1)
    {p : List Str} {v : Value} (hp : (p, v) ∈ leaves m1) (hplain : Plain P.env.rx cfg2 p) :
    ∃ (f' : EncFile x.doc.F) (m'' : RMap EncLeaf) (es1 es2 : List Event), es = es1 ++ es2 ∧ Between P es1 ∧
      Delivered P (P.stdin == .terminal) a.file (EncFile.toText (P.T x) P.env.C f') es2 ∧
      x.doc.F.encOfInternal P.env.C m'' = some f'.map ∧ (p, .escaped v) ∈ leaves m'' := by
  obtain ⟨f', m'', es1, es2, h1, h2, h3, h4, _, h5, _⟩ :=
    C64_written he h hx hs hf (C66_setting he (docRep_lawful x) hh hcfg hkeys) hed ho hfit
  refine ⟨f', m'', es1, es2, h1, h2, h3, h4.written, ?_⟩
  obtain ⟨n, hn⟩ := List.mem_iff_getElem?.1 hp
  obtain ⟨⟨q, l⟩, hb, hr⟩ := h4.sealed.2.getElem hn
  obtain ⟨rfl, hr⟩ := hr
  rcases hr with ⟨_, h6⟩ | ⟨h6, _⟩
  · simp only at h6
    subst h6
    exact List.mem_of_getElem? hb
  · exfalso
    apply h6
    rw [h5]
    exact hplain

/-- **C66.** The value of `mac_only_encrypted` can be replaced exactly if the hashed bytes stay the same, or are a
collision of the hash. -/
theorem C66_mac_only (he : EnvLaws env) (hFo : Format.Lawful Fo rep') (h : Holding env rep f key m m')
    (hm : Holds rep' m) (hr : env.retrieveDataKey f.metadata = .ok d) (only : Option Bool) :
    (∃ g : DecFile Fo, EncFile.decrypt Fo env (withMacOnly f only) = .ok g) ↔
      hashedBytes env.rx (withMacOnly f only).metadata (items m m') = hashedBytes env.rx f.metadata (items m m') ∨
      Collide env.H (hashedBytes env.rx (withMacOnly f only).metadata (items m m'))
        (hashedBytes env.rx f.metadata (items m m')) := by
  have hk := retrieve_of_allWrap he h.key_length h.units hr
  subst hk
  rw [← macInput_items env.rx (withMacOnly f only).metadata h.items.2.1.symm, ← macInput_items env.rx f.metadata h.items.2.1.symm]
  have hd : RMap.decrypt (env.decEnv d) m' = .ok m := decrypt_of_sealed he.cipher h.fits.canonical h.sealed
  have hmac := he.cipher.decrypt_encrypt h.mac
  constructor
  · rintro ⟨g, hg⟩
    obtain ⟨k1, n1, m1, a1, a2, a3, a4, _⟩ := decrypt_ok_iff.1 hg
    have e1 : env.retrieveDataKey (withMacOnly f only).metadata = env.retrieveDataKey f.metadata := rfl
    rw [e1, hr] at a1
    cases a1
    have e2 : F.encToInternal env.C env.rx (Resolved.ofConfig (withMacOnly f only).metadata.partialEncryption)
        (withMacOnly f only).map = .ok m' := h.read
    rw [e2] at a2
    cases a2
    rw [hd] at a3
    cases a3
    rw [show (withMacOnly f only).metadata.mac = f.metadata.mac from rfl,
      show (withMacOnly f only).metadata.lastModified = f.metadata.lastModified from rfl, hmac, Env.macOf_eq he.hasher] at a4
    have a5 := hex_injective (utf8_injective (Option.some.inj a4))
    by_cases hb : macInput env.rx (withMacOnly f only).metadata.partialEncryption
        ((withMacOnly f only).metadata.macOnlyEncrypted.getD false) m =
        macInput env.rx f.metadata.partialEncryption (f.metadata.macOnlyEncrypted.getD false) m
    · exact .inl hb
    · exact .inr ⟨hb, a5.symm⟩
  · intro hb
    have hdig : env.H.digest (macInput env.rx (withMacOnly f only).metadata.partialEncryption
        ((withMacOnly f only).metadata.macOnlyEncrypted.getD false) m) =
        env.H.digest (macInput env.rx f.metadata.partialEncryption (f.metadata.macOnlyEncrypted.getD false) m) := by
      rcases hb with hb | hb
      · rw [hb]
      · exact hb.2
    obtain ⟨y, hy1, hy2⟩ := hFo.round_trip m hm
    refine ⟨⟨y, decMetadata (withMacOnly f only).metadata (env.macOf (withMacOnly f only).metadata m)⟩,
      decrypt_ok_iff.2 ⟨d, m', m, hr, h.read, hd, ?_, hy1, rfl⟩⟩
    rw [Env.macOf_eq he.hasher]
    unfold macText at hmac ⊢
    rw [hdig]
    exact hmac

/-! ## A concrete case -/

/-- Example: the unit inserted, for a recipient whose identity is "k9". -/
def junkUnit : IUnit .age := { keyId := c!"pk9", createdAt := none, enc := c!"junk" }

/-- Example: `rops keys remove --age pk2 a.json`. -/
def removeSecond : KeyArgs := { keys := { age := [c!"pk2"], kms := [] }, format := none, file := c!"a.json" }

theorem written_unit {f : EncFile Format.json} (hw : EncWritable Toy.docOps Toy.env.C f.metadata)
    (hk : ∀ e ∈ (show List (Str × Json) from f.map), e.1 ≠ c!"sops")
    (hnew : junkUnit.keyId ∉ keyIds f.metadata.integration .age) :
    EncFile.ofText Toy.jsonText Toy.docOps Toy.env.C
      (EncFile.toText Toy.jsonText Toy.env.C (withAgeUnits f (f.metadata.integration.age ++ [junkUnit] ++ []))) =
      some (withAgeUnits f (f.metadata.integration.age ++ [junkUnit] ++ [])) := by
  refine C44_json Toy.docOps_laws Toy.jsonText_laws hk ⟨?_, ?_, ?_, hw.modified, hw.mac, hw.setting⟩ trivial
  · intro k
    cases k with
    | kms => exact hw.ids .kms
    | age =>
      have := hw.ids .age
      simp only [keyIds, IntegrationMetadata.units, withAgeUnits, List.append_nil, List.map_append, List.map_cons,
        List.map_nil] at this hnew ⊢
      rw [List.nodup_append]
      exact ⟨this, by simp, fun a ha b hb => by rw [List.mem_singleton] at hb; rintro rfl; exact hnew (hb ▸ ha)⟩
  · intro k id hid
    cases k with
    | kms => exact hw.keys .kms id hid
    | age => rfl
  · intro k u hu t ht
    cases k with
    | kms => exact hw.created .kms u hu t ht
    | age =>
      simp only [IntegrationMetadata.units, withAgeUnits, List.append_nil, List.mem_append, List.mem_singleton] at hu
      rcases hu with hu | rfl
      · exact hw.created .age u hu t ht
      · cases ht

/-- The owner "k1" removes the recipient "pk2" from a file in which someone has put the recipient "pk9": the holder of
"k9" decrypts the file written. -/
example : ∃ (P : Proc) (es : List Event) (f' : EncFile Format.json),
    P.run (.removeKeys removeSecond) 50 = (es, .ok ()) ∧
    .write c!"a.json" (utf8 (EncFile.toText Toy.jsonText Toy.env.C f')) .done ∈ es ∧
    OpenedBy Toy.env f' c!"pk9" [(c!"a", .leaf (.string c!"x")), (c!"b_plain", .leaf (.boolean true))] := by
  obtain ⟨f, j, m', hb, _, h1, hh, hw, hr⟩ := Toy.encrypted []
  have hc : (match Toy.smallBuilder.encrypt Toy.env 0 with
      | .error _ => false
      | .ok (f, _) => decide (junkUnit.keyId ∉ keyIds f.metadata.integration .age ∧ c!"pk2" ∈ keyIds f.metadata.integration .age ∧
          (∀ e ∈ (show List (Str × Json) from f.map).map Prod.fst, e ≠ c!"sops")) &&
        match EncFile.decrypt Format.json Toy.env (withAgeUnits f (f.metadata.integration.age ++ [junkUnit] ++ [])) with
        | .error _ => false
        | .ok g => match g.removeKeys Toy.env .age [c!"pk2"] 50 with
          | .error _ => false
          | .ok (g1, j) => match g1.removeKeys Toy.env .kms [] j with
            | .error _ => false
            | .ok (g2, j) => match g2.encrypt Format.json Toy.env j with
              | .error _ => false
              | .ok _ => true) = true := by decide +kernel
  rw [hb] at hc
  simp only [Bool.and_eq_true, decide_eq_true_eq] at hc
  obtain ⟨⟨hnew, hmem, hk⟩, hc⟩ := hc
  split at hc
  · cases hc
  rename_i g hg
  split at hc
  · cases hc
  rename_i g1 j1 hg1
  split at hc
  · cases hc
  rename_i g2 j2 hg2
  split at hc
  · cases hc
  rename_i r hr2
  let f2 := withAgeUnits f (f.metadata.integration.age ++ [junkUnit] ++ [])
  let P := Toy.proc Toy.rule (EncFile.toText Toy.jsonText Toy.env.C f2) []
  have hx : getFormat (some removeSecond.file) removeSecond.format = .ok .json := by decide +kernel
  have hf2 := written_unit hw (fun e he => hk e.1 (List.mem_map.2 ⟨e, he, rfl⟩)) hnew
  have hrun : P.run (.removeKeys removeSecond) 50 =
      ([.write c!"a.json" (utf8 (EncFile.toText Toy.jsonText Toy.env.C r.1)) .done], .ok ()) :=
    run_removeKeys_ok.2 ⟨⟨_, Toy.proc_config _ _⟩, .json, _, f2, g, g1, g2, j1, j2, r.2, r.1, hx, Toy.proc_input _ _ _, hf2, hg, hg1,
      hg2, hr2, .inl ⟨rfl, _, rfl, rfl, rfl⟩⟩
  obtain ⟨f', hd, ho⟩ := C66_keys_remove (P := P) (x := .json) Toy.env_laws hrun hx hh (A := f.metadata.integration.age) (B := [])
    (by simp) (u := junkUnit) hnew (ks := [c!"k1"]) rfl
    (show ∀ k ∈ [c!"k1"], Toy.env.A.toPublic k ≠ junkUnit.keyId from
      fun k hk => by rw [List.mem_singleton] at hk; subst hk; decide) (Toy.proc_input _ _ _) hf2 (by decide)
    (.inl ⟨c!"pk2", .head _, hmem⟩)
  refine ⟨P, _, f', hrun, ?_, ho⟩
  rcases hd with ⟨_, q, hq, _, he⟩ | ⟨h, _⟩
  · cases hq
    rw [he]
    exact .head _
  · cases h

/-- Example: the document after the user has added a token. -/
def withToken : Format.json.Map := [(c!"a", .leaf (.str c!"x")), (c!"b_plain", .leaf (.bool true)), (c!"token", .leaf (.str c!"s3"))]

theorem withToken_fits : Fits Toy.env.fl jsonRep (some (.encryptedSuffix c!"a"))
    [(c!"a", .leaf (.string c!"x")), (c!"b_plain", .leaf (.boolean true)), (c!"token", .leaf (.string c!"s3"))] := by
  have hl : leaves [(c!"a", .leaf (.string c!"x")), (c!"b_plain", .leaf (.boolean true)), (c!"token", .leaf (.string c!"s3"))] =
    [([c!"a"], Value.string c!"x"), ([c!"b_plain"], .boolean true), ([c!"token"], .string c!"s3")] := rfl
  refine ⟨?_, ?_, fun _ => .inl (by unfold NoColon; decide)⟩
  · unfold Canonical
    rw [hl]
    intro pv h
    simp only [List.mem_cons, List.not_mem_nil, or_false] at h
    rcases h with rfl | rfl | rfl <;> trivial
  · unfold Holds
    rw [hl]
    intro pv h
    simp only [List.mem_cons, List.not_mem_nil, or_false] at h
    rcases h with rfl | rfl | rfl <;> trivial

/-- In a file encrypted except for keys ending with "_plain", someone has replaced the setting: encrypt only keys
ending with "a". The user adds a token by `rops edit`: it is written in plaintext. -/
example : ∃ (P : Proc) (es : List Event) (f' : EncFile Format.json) (m'' : RMap EncLeaf),
    P.run (.edit Toy.input) 7 = (es, .ok ()) ∧
    .write c!"a.json" (utf8 (EncFile.toText Toy.jsonText Toy.env.C f')) .done ∈ es ∧
    Format.json.encOfInternal Toy.env.C m'' = some f'.map ∧ ([c!"token"], .escaped (.string c!"s3")) ∈ leaves m'' := by
  let ed : List Attempt := [.left (.data (utf8 c!"{")) .key, .left (.data (utf8 (Toy.mapText withToken))) .key]
  obtain ⟨f, _, m', hb, _, _, hh, hw, hr⟩ := Toy.encrypted ed
  let cfg2 : Option PartialEncryption := some (.encryptedSuffix c!"a")
  have hcfg0 : f.metadata.partialEncryption = some (.unencryptedSuffix c!"_plain") := by
    obtain ⟨_, _, _, im, _, _, _, h3, _, _, h6⟩ := Builder.encrypt_ok hb
    rw [h6]; rfl
  have hcfg : ∀ pv ∈ leaves ([(c!"a", .leaf (.string c!"x")), (c!"b_plain", .leaf (.boolean true))] : RMap Value),
      Plain Toy.env.rx cfg2 pv.1 ↔ Plain Toy.env.rx f.metadata.partialEncryption pv.1 := by
    rw [hcfg0]
    decide
  have hkeys : cfg2 ≠ none → KeysAgree cfg2 ([(c!"a", .leaf (.string c!"x")), (c!"b_plain", .leaf (.boolean true))] : RMap Value) :=
    fun _ => .inl (by unfold NoColon; decide)
  have hh2 := C66_setting Toy.env_laws Format.json_lawful hh hcfg hkeys
  have hf2 : EncFile.ofText Toy.jsonText Toy.docOps Toy.env.C (EncFile.toText Toy.jsonText Toy.env.C (withSetting f cfg2)) =
      some (withSetting f cfg2) := by
    rw [C44_json_encryption Toy.docOps_laws Toy.jsonText_laws (f := withSetting f cfg2) hh2
      ⟨hw.ids, hw.keys, hw.created, hw.modified, hw.mac, fun p hp => by cases hp; rfl⟩ trivial]
    rfl
  let P := Toy.proc Toy.rule (EncFile.toText Toy.jsonText Toy.env.C (withSetting f cfg2)) ed
  have hx : getFormat Toy.input.file Toy.input.format = .ok .json := by decide +kernel
  have ho : Format.json.toInternal withToken =
      .ok [(c!"a", .leaf (.string c!"x")), (c!"b_plain", .leaf (.boolean true)), (c!"token", .leaf (.string c!"s3"))] := rfl
  obtain ⟨es, hrun⟩ := C64_succeeds (P := P) (a := Toy.input) (x := .json) Toy.env_laws Toy.cipher_total (Toy.proc_config _ _) hx
    (Toy.proc_input _ _ _) hf2 hh2 hr (t := c!"/tmp/t") rfl (fun _ => rfl) (Toy.proc_editor _ _ _) (leftBehind withToken) ho
    withToken_fits (fun _ _ _ => rfl) (fun _ => rfl) 7
  obtain ⟨f', m'', e1, e2, hes, _, hd, h1, h2⟩ := C66_edit_plaintext (P := P) (x := .json) Toy.env_laws hrun hx hh hcfg hkeys
    (Toy.proc_input _ _ _) hf2 (leftBehind withToken) ho withToken_fits (p := [c!"token"]) (v := .string c!"s3") (by decide)
    (show Plain Toy.env.rx (some (.encryptedSuffix c!"a")) [c!"token"] by decide)
  refine ⟨P, _, f', m'', hrun, ?_, h1, h2⟩
  rw [hes]
  rcases hd with ⟨_, q, hq, _, rfl⟩ | ⟨h, _⟩
  · cases hq
    exact List.mem_append_right _ (.head _)
  · cases h

end Rops.Props
