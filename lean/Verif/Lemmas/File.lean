import Verif.Spec.File
import Verif.Lemmas.Keys
import Verif.Lemmas.Nonces
import Verif.Lemmas.Mac
import Verif.Lemmas.Format
/-! Files: what encryption produces, what decryption accepts. -/

namespace Rops
open Spec

/-! ## Zip -/

theorem Spec.Zip.length {α β : Type} {R : α → β → Prop} {l : List α} {l' : List β} (h : Zip R l l') :
    l.length = l'.length := by
  induction h with
  | nil => rfl
  | cons _ _ ih => simp [ih]

theorem Spec.Zip.getElem {α β : Type} {R : α → β → Prop} {l : List α} {l' : List β} (h : Zip R l l') {n : Nat} {a : α}
    (ha : l[n]? = some a) : ∃ b, l'[n]? = some b ∧ R a b := by
  induction h generalizing n with
  | nil => simp at ha
  | cons hr _ ih =>
    cases n with
    | zero => simp only [List.getElem?_cons_zero, Option.some.injEq] at ha; subst ha; exact ⟨_, rfl, hr⟩
    | succ n => exact ih ha

theorem Spec.Zip.getElem' {α β : Type} {R : α → β → Prop} {l : List α} {l' : List β} (h : Zip R l l') {n : Nat} {b : β}
    (hb : l'[n]? = some b) : ∃ a, l[n]? = some a ∧ R a b := by
  induction h generalizing n with
  | nil => simp at hb
  | cons hr _ ih =>
    cases n with
    | zero => simp only [List.getElem?_cons_zero, Option.some.injEq] at hb; subst hb; exact ⟨_, rfl, hr⟩
    | succ n => exact ih hb

theorem Spec.Zip.mem' {α β : Type} {R : α → β → Prop} {l : List α} {l' : List β} (h : Zip R l l') {b : β}
    (hb : b ∈ l') : ∃ a ∈ l, R a b := by
  obtain ⟨n, hn⟩ := List.mem_iff_getElem?.1 hb
  obtain ⟨a, ha, hr⟩ := h.getElem' hn
  exact ⟨a, List.mem_of_getElem? ha, hr⟩

/-! ## Sealed maps -/

theorem Value.encrypt_iff {C : Cipher} {n k : Bytes} {p : Str} {v : Value} {e : EncValue} :
    v.encrypt C n k p = some e ↔
      C.encrypt n k (plainBytes v) (utf8 p) = some (e.data, e.tag) ∧ e.nonce = n ∧ e.variant = v.variant := by
  unfold Value.encrypt
  rw [Value.asBytes_eq]
  cases h : C.encrypt n k (plainBytes v) (utf8 p) with
  | none => simp
  | some x =>
    obtain ⟨d, t⟩ := x
    simp only [Option.some.injEq, Prod.mk.injEq]
    constructor
    · rintro rfl; exact ⟨⟨rfl, rfl⟩, rfl, rfl⟩
    · rintro ⟨⟨rfl, rfl⟩, rfl, h'⟩
      rw [← h']

/-- All nonces of a saved table have the size of the cipher. -/
def SavedSized (C : Cipher) (s : Option SavedNonces) : Prop :=
  ∀ t, s = some t → ∀ p v n, t.get p v = some n → n.length = C.nonceSize

theorem nonceFor_length {env : EncEnv} (ht : ∀ i, (env.tape i).length = env.C.nonceSize)
    (hs : SavedSized env.C env.saved) (p : Str) (v : Value) (i : Nat) :
    (env.nonceFor p v i).1.length = env.C.nonceSize := by
  unfold EncEnv.nonceFor
  cases hsv : env.saved with
  | none => exact ht _
  | some s =>
    simp only [Option.bind_some]
    cases hg : s.get p v with
    | none => exact ht _
    | some n => exact hs s hsv _ _ _ hg

theorem sealed_of_encrypt {env : EncEnv} (hC : env.C.Lawful) (ht : ∀ i, (env.tape i).length = env.C.nonceSize)
    (hs : SavedSized env.C env.saved) {cfg : Option PartialEncryption} {m : RMap Value} (hk : cfg ≠ none → KeysAgree cfg m)
    {i j : Nat} {m' : RMap EncLeaf} (h : RMap.encrypt env cfg m i = .ok (m', j)) :
    Sealed env.C env.rx env.key cfg m m' := by
  obtain ⟨h1, h2⟩ := RMap.encrypt_ok_iff.1 h
  refine ⟨h1, ?_⟩
  have hpl : ∀ pv ∈ leaves m, (Plain env.rx cfg (pv.1.map lastPart) ↔ Plain env.rx cfg pv.1) :=
    fun pv hpv => plain_lastPart hk (by exact hpv)
  revert hpl h2
  generalize leaves m = vs
  generalize leaves m' = ls
  intro h2 hpl
  clear h h1
  induction vs generalizing ls i with
  | nil => simp only [travList] at h2; cases h2; exact .nil
  | cons x r ih =>
    obtain ⟨p, v⟩ := x
    obtain ⟨l, i1, ls', h3, h4, rfl⟩ := travList_cons_ok.1 h2
    refine .cons ?_ (ih _ h4 fun pv hpv => hpl pv (by simp [hpv]))
    refine ⟨rfl, ?_⟩
    rw [EncEnv.leafAt_ok, hpl (p, v) (by simp)] at h3
    rcases h3 with ⟨hp, rfl, _⟩ | ⟨hp, e, rfl, he, _⟩
    · exact .inl ⟨hp, rfl⟩
    · refine .inr ⟨hp, e, rfl, ?_⟩
      have hsz := (Value.sized_of_encrypt hC (nonceFor_length ht hs _ _ _) he).1
      obtain ⟨e1, e2, e3⟩ := Value.encrypt_iff.1 he
      rw [← e2] at e1
      exact ⟨e1, e3, hsz⟩

theorem encHolds_of_sealed {C : Cipher} {rx : RegexMatch} {key : Bytes} {cfg : Option PartialEncryption}
    {m : RMap Value} {m' : RMap EncLeaf} {rep : Value → Prop} (hm : Holds rep m) (h : Sealed C rx key cfg m m') :
    EncHolds C rx cfg rep m' := by
  constructor
  · intro p e hpe
    obtain ⟨⟨q, v⟩, hq, hr⟩ := h.2.mem' hpe
    obtain ⟨h1, h2⟩ := hr
    simp only at h1 h2
    subst h1
    rcases h2 with ⟨_, h3⟩ | ⟨h3, e', h4, h5⟩
    · cases h3
    · cases h4; exact ⟨h3, h5.2.2⟩
  · intro p v hpv
    obtain ⟨⟨q, w⟩, hq, hr⟩ := h.2.mem' hpv
    obtain ⟨h1, h2⟩ := hr
    simp only at h1 h2
    subst h1
    rcases h2 with ⟨h3, h4⟩ | ⟨_, e', h4, _⟩
    · cases h4; exact ⟨h3, hm _ hq⟩
    · cases h4

theorem seals_encrypt {C : Cipher} {key : Bytes} {p : List Str} {v : Value} {e : EncValue} (h : Seals C key p v e) :
    v.encrypt C e.nonce key (pathText p) = some e := Value.encrypt_iff.2 ⟨h.1, rfl, h.2.1⟩

theorem decrypt_of_sealed {C : Cipher} (hC : C.Lawful) {rx : RegexMatch} {key : Bytes}
    {cfg : Option PartialEncryption} {m : RMap Value} {m' : RMap EncLeaf} {fl : FloatOps} (hm : Canonical fl m)
    (h : Sealed C rx key cfg m m') : RMap.decrypt { C, fl, key } m' = .ok m := by
  rw [RMap.decrypt_ok_iff]
  refine ⟨h.1.symm, ?_⟩
  have h2 := h.2
  revert h2
  unfold Canonical at hm
  revert hm
  generalize leaves m = vs
  generalize leaves m' = ls
  intro hm h2
  clear h
  induction h2 with
  | nil => trivial
  | @cons a b r r' hr _ ih =>
    obtain ⟨p, v⟩ := a
    obtain ⟨q, l⟩ := b
    obtain ⟨h1, h2⟩ := hr
    simp only at h1 h2
    subst h1
    refine ⟨rfl, ?_, ih fun pv hpv => hm pv (by simp [hpv])⟩
    rcases h2 with ⟨_, rfl⟩ | ⟨_, e, rfl, he⟩
    · rfl
    · exact Value.decrypt_encrypt hC (hm _ List.mem_cons_self) (seals_encrypt he)

theorem sealed_saved_sized {C : Cipher} {rx : RegexMatch} {key : Bytes} {cfg : Option PartialEncryption}
    {m : RMap Value} {m' : RMap EncLeaf} (h : Sealed C rx key cfg m m') :
    SavedSized C (some (savedAll (leaves m') (leaves m) [])) := by
  intro t ht p v n hn
  cases ht
  rcases savedAll_get hn with h1 | ⟨i, q, e, q', h1, h2, h3, h4⟩
  · cases h1
  · obtain ⟨⟨q1, v1⟩, hq, hr⟩ := h.2.getElem' h1
    rcases hr.2 with ⟨_, h5⟩ | ⟨_, e', h5, h6⟩
    · cases h5
    · cases h5; rw [← h4]; exact h6.2.2.nonce_length

/-- Encrypting again with a table that gives each leaf its own nonce gives the same map and
draws nothing. -/
theorem reencrypt_sealed {env : EncEnv} {cfg : Option PartialEncryption} {t : SavedNonces} (hs : env.saved = some t)
    {m : RMap Value} {m' : RMap EncLeaf} (hk : cfg ≠ none → KeysAgree cfg m) (h : Sealed env.C env.rx env.key cfg m m')
    (ht : ∀ (n : Nat) (q : List Str) (e : EncValue) (v : Value), (leaves m')[n]? = some (q, .encrypted e) →
      (leaves m)[n]? = some (q, v) → t.get (pathText q) v = some e.nonce) (i : Nat) :
    RMap.encrypt env cfg m i = .ok (m', i) := by
  rw [RMap.encrypt_ok_iff]
  refine ⟨h.1, ?_⟩
  have hpl : ∀ pv ∈ leaves m, (Plain env.rx cfg (pv.1.map lastPart) ↔ Plain env.rx cfg pv.1) :=
    fun pv hpv => plain_lastPart hk (by exact hpv)
  have h2 := h.2
  revert h2 ht hpl
  generalize leaves m = vs
  generalize leaves m' = ls
  intro ht hpl h2
  clear h
  induction h2 with
  | nil => rfl
  | @cons a b r r' hr _ ih =>
    obtain ⟨p, v⟩ := a
    obtain ⟨q, l⟩ := b
    obtain ⟨h1, h2⟩ := hr
    simp only at h1 h2
    subst h1
    refine travList_cons_ok.2 ⟨l, i, r', ?_, ih (fun n q e v hl hv => ht (n + 1) q e v hl hv)
      fun pv hpv => hpl pv (by simp [hpv]), rfl⟩
    rw [EncEnv.leafAt_ok, hpl (q, v) (by simp)]
    rcases h2 with ⟨hp, rfl⟩ | ⟨hp, e, rfl, he⟩
    · exact .inl ⟨hp, rfl, rfl⟩
    · have hget := ht 0 q e v rfl rfl
      have hn : env.nonceFor (pathText q) v i = (e.nonce, i) := by
        simp [EncEnv.nonceFor, hs, hget]
      rw [hn]
      exact .inr ⟨hp, e, rfl, seals_encrypt he, rfl⟩

/-! ## The MAC -/

theorem Env.macOf_eq {env : Env} (hH : env.H.Streaming) {M : Type} (md : Metadata M) (m : RMap Value) :
    env.macOf md m = macText env.H env.rx md.partialEncryption md.macOnlyEncrypted m :=
  Mac.compute_eq hH _ _ _ _

theorem Mac.encrypt_ok {C : Cipher} {tape : Nat → Bytes} {key : Bytes} {date : Timestamp} {saved : Option SavedMacNonce}
    {mac : Mac} {i j : Nat} {e : EncValue} (h : Mac.encrypt C tape key date saved mac i = .ok (e, j)) :
    C.encrypt e.nonce key mac date.toBytes = some (e.data, e.tag) ∧ e.variant = .string ∧
      (e.nonce, j) = Mac.nonceFor tape saved mac i := by
  unfold Mac.encrypt at h
  simp only at h
  split at h
  · rename_i data tag hd
    cases h
    exact ⟨hd, rfl, rfl⟩
  · cases h

theorem EncMac.decrypt_encrypt {C : Cipher} (hC : C.Lawful) {key : Bytes} {date : Timestamp} {mac : Mac} {e : EncValue}
    (h : C.encrypt e.nonce key mac date.toBytes = some (e.data, e.tag)) :
    EncMac.decrypt C key date e = some (mac, { mac, nonce := e.nonce }) := by
  unfold EncMac.decrypt
  rw [hC.decrypt_encrypt h]

/-! ## What decryption accepts -/

theorem decryptMetadata_ok {env : Env} {md : Metadata EncValue} {r : Metadata Mac × Bytes × SavedMacNonce} :
    env.decryptMetadata md = .ok r ↔ ∃ key mac, env.retrieveDataKey md = .ok key ∧
      env.C.decrypt md.mac.nonce key md.mac.data md.lastModified.toBytes md.mac.tag = some mac ∧
      r = (decMetadata md mac, key, { mac, nonce := md.mac.nonce }) := by
  unfold Env.decryptMetadata EncMac.decrypt
  cases h1 : env.retrieveDataKey md with
  | error e => simp
  | ok key =>
    cases h2 : env.C.decrypt md.mac.nonce key md.mac.data md.lastModified.toBytes md.mac.tag with
    | none => simp [h2]
    | some mac =>
      simp only [h2, Except.ok.injEq]
      constructor
      · rintro rfl; exact ⟨key, mac, rfl, h2, rfl⟩
      · rintro ⟨key', mac', h3, h4, rfl⟩
        cases h3
        rw [h2] at h4
        cases h4
        rfl

theorem validateMac_ok {env : Env} {m : RMap Value} {md : Metadata Mac} :
    env.validateMac m md = .ok () ↔ md.mac = env.macOf md m := by
  unfold Env.validateMac
  by_cases h : env.macOf md m = md.mac
  · simp [h]
  · have h' : ¬ md.mac = env.macOf md m := fun e => h e.symm
    have hb : (env.macOf md m != md.mac) = true := by simp [h]
    rw [if_pos hb]
    cases utf8? (env.macOf md m) <;> cases utf8? md.mac <;> simp [h']

theorem Env.macOf_text (env : Env) {M : Type} (md : Metadata M) (m : RMap Value) :
    ∃ t, env.macOf md m = utf8 t := ⟨_, rfl⟩

theorem validateMac_ne {env : Env} {m : RMap Value} {md : Metadata Mac} {t : Str} (ht : env.macOf md m = utf8 t)
    (h : env.macOf md m ≠ md.mac) : env.validateMac m md = (match utf8? md.mac with
      | some s => .error (.macMismatch t s)
      | none => .error .panic) := by
  unfold Env.validateMac
  have hb : (env.macOf md m != md.mac) = true := by simp [h]
  rw [if_pos hb, ht, utf8?_utf8]
  cases utf8? md.mac <;> rfl

/-- Exactly when and with what result a file decrypts. -/
theorem decrypt_ok_iff {F : Format} {Fo : Format} {env : Env} {f : EncFile F} {g : DecFile Fo} :
    f.decrypt Fo env = .ok g ↔ ∃ key m' m, env.retrieveDataKey f.metadata = .ok key ∧
      F.encToInternal env.C env.rx (Resolved.ofConfig f.metadata.partialEncryption) f.map = .ok m' ∧
      RMap.decrypt (env.decEnv key) m' = .ok m ∧
      env.C.decrypt f.metadata.mac.nonce key f.metadata.mac.data f.metadata.lastModified.toBytes f.metadata.mac.tag
        = some (env.macOf f.metadata m) ∧
      Fo.ofInternal m = some g.map ∧ g.metadata = decMetadata f.metadata (env.macOf f.metadata m) := by
  unfold EncFile.decrypt
  cases h1 : env.decryptMetadata f.metadata with
  | error e =>
    simp only [reduceCtorEq, false_iff]
    rintro ⟨key, m', m, h2, h3, h4, h5, h6, h7⟩
    rw [decryptMetadata_ok.2 ⟨key, _, h2, h5, rfl⟩] at h1
    cases h1
  | ok r =>
    obtain ⟨key, mac, h2, h3, rfl⟩ := decryptMetadata_ok.1 h1
    simp only
    have hcfg : (decMetadata f.metadata mac).partialEncryption = f.metadata.partialEncryption := rfl
    rw [hcfg]
    cases h4 : F.encToInternal env.C env.rx (Resolved.ofConfig f.metadata.partialEncryption) f.map with
    | error e => simp
    | ok m' =>
      simp only
      cases h5 : RMap.decrypt (env.decEnv key) m' with
      | error e =>
        simp only [reduceCtorEq, false_iff]
        rintro ⟨key', m1, m, h6, h7, h8, _⟩
        rw [h2] at h6; cases h6; cases h7
        rw [h5] at h8; cases h8
      | ok m =>
        simp only
        cases h6 : env.validateMac m (decMetadata f.metadata mac) with
        | error e =>
          simp only [reduceCtorEq, false_iff]
          rintro ⟨key', m1, m2, h7, h8, h9, h10, h11, h12⟩
          rw [h2] at h7; cases h7; cases h8
          rw [h5] at h9; cases h9
          rw [h3] at h10
          injection h10 with h10
          have : env.validateMac m (decMetadata f.metadata mac) = .ok () := validateMac_ok.2 h10
          rw [this] at h6; cases h6
        | ok u =>
          have h7 := validateMac_ok.1 h6
          have h7 : mac = env.macOf f.metadata m := h7
          simp only
          cases h8 : Fo.ofInternal m with
          | none =>
            simp only [reduceCtorEq, false_iff]
            rintro ⟨key', m1, m2, h9, h10, h11, h12, h13, h14⟩
            rw [h2] at h9; cases h9; cases h10
            rw [h5] at h11; cases h11
            rw [h8] at h13; cases h13
          | some x =>
            simp only [Except.ok.injEq]
            constructor
            · rintro rfl
              exact ⟨key, m', m, h2, rfl, h5, by rw [h3, h7], h8, by rw [h7]⟩
            · rintro ⟨key', m1, m2, h9, h10, h11, h12, h13, h14⟩
              rw [h2] at h9; cases h9; cases h10
              rw [h5] at h11; cases h11
              rw [h8] at h13; cases h13
              obtain ⟨gm, gmd⟩ := g
              simp only at h14 ⊢
              rw [h14, h7]

/-- Exactly when and with what result a file decrypts while saving parameters. -/
theorem decryptAndSave_ok_iff {F : Format} {Fo : Format} {env : Env} {f : EncFile F} {g : DecFile Fo} {p : SavedParameters} :
    f.decryptAndSave Fo env = .ok (g, p) ↔ ∃ key m' m, env.retrieveDataKey f.metadata = .ok key ∧
      F.encToInternal env.C env.rx (Resolved.ofConfig f.metadata.partialEncryption) f.map = .ok m' ∧
      RMap.decrypt (env.decEnv key) m' = .ok m ∧
      env.C.decrypt f.metadata.mac.nonce key f.metadata.mac.data f.metadata.lastModified.toBytes f.metadata.mac.tag
        = some (env.macOf f.metadata m) ∧
      Fo.ofInternal m = some g.map ∧ g.metadata = decMetadata f.metadata (env.macOf f.metadata m) ∧
      p = { dataKey := key, mapNonces := savedAll (leaves m') (leaves m) []
            macNonce := { mac := env.macOf f.metadata m, nonce := f.metadata.mac.nonce } } := by
  unfold EncFile.decryptAndSave
  cases h1 : env.decryptMetadata f.metadata with
  | error e =>
    simp only [reduceCtorEq, false_iff]
    rintro ⟨key, m', m, h2, h3, h4, h5, h6, h7⟩
    rw [decryptMetadata_ok.2 ⟨key, _, h2, h5, rfl⟩] at h1
    cases h1
  | ok r =>
    obtain ⟨key, mac, h2, h3, rfl⟩ := decryptMetadata_ok.1 h1
    simp only
    have hcfg : (decMetadata f.metadata mac).partialEncryption = f.metadata.partialEncryption := rfl
    rw [hcfg]
    cases h4 : F.encToInternal env.C env.rx (Resolved.ofConfig f.metadata.partialEncryption) f.map with
    | error e => simp
    | ok m' =>
      simp only
      cases h5 : RMap.decryptAndSave (env.decEnv key) m' with
      | error e =>
        simp only [reduceCtorEq, false_iff]
        rintro ⟨key', m1, m, h6, h7, h8, _⟩
        rw [h2] at h6; cases h6; cases h7
        rw [RMap.decryptAndSave_of_decrypt h8] at h5; cases h5
      | ok ms =>
        obtain ⟨m, s⟩ := ms
        have h5' := RMap.decrypt_of_decryptAndSave h5
        have hs : s = savedAll (leaves m') (leaves m) [] := (RMap.decryptAndSave_ok_iff.1 h5).2.2
        simp only
        cases h6 : env.validateMac m (decMetadata f.metadata mac) with
        | error e =>
          simp only [reduceCtorEq, false_iff]
          rintro ⟨key', m1, m2, h7, h8, h9, h10, h11, h12⟩
          rw [h2] at h7; cases h7; cases h8
          rw [h5'] at h9; cases h9
          rw [h3] at h10
          injection h10 with h10
          have : env.validateMac m (decMetadata f.metadata mac) = .ok () := validateMac_ok.2 h10
          rw [this] at h6; cases h6
        | ok u =>
          have h7 := validateMac_ok.1 h6
          have h7 : mac = env.macOf f.metadata m := h7
          simp only
          cases h8 : Fo.ofInternal m with
          | none =>
            simp only [reduceCtorEq, false_iff]
            rintro ⟨key', m1, m2, h9, h10, h11, h12, h13, h14⟩
            rw [h2] at h9; cases h9; cases h10
            rw [h5'] at h11; cases h11
            rw [h8] at h13; cases h13
          | some x =>
            simp only [Except.ok.injEq, Prod.mk.injEq]
            constructor
            · rintro ⟨rfl, rfl⟩
              exact ⟨key, m', m, h2, rfl, h5', by rw [h3, h7], h8, by rw [h7], by rw [h7, hs]⟩
            · rintro ⟨key', m1, m2, h9, h10, h11, h12, h13, h14, h15⟩
              rw [h2] at h9; cases h9; cases h10
              rw [h5'] at h11; cases h11
              rw [h8] at h13; cases h13
              obtain ⟨gm, gmd⟩ := g
              simp only at h14 ⊢
              rw [h14, h7, h15, hs]
              exact ⟨rfl, rfl⟩

theorem retrieveDataKey_ok {env : Env} {M : Type} {md : Metadata M} {d : Bytes} :
    env.retrieveDataKey md = .ok d ↔ env.decryptAny md.integration = .ok (some d) := by
  unfold Env.retrieveDataKey
  cases env.decryptAny md.integration with
  | error e => simp
  | ok o => cases o <;> simp

theorem retrieve_of_allWrap {env : Env} (h : EnvLaws env) {M : Type} {md : Metadata M} {d d' : Bytes}
    (hd : d.length = dataKeySize) (hw : AllWrap env.A env.K md.integration d)
    (hr : env.retrieveDataKey md = .ok d') : d' = d :=
  decryptAny_of_allWrap h.age h.kms hd hw (retrieveDataKey_ok.1 hr)

/-! ## What encryption produces -/

theorem encryptWith_ok_iff {F Fo : Format} {env : Env} {key : Bytes} {sm : Option SavedNonces} {sc : Option SavedMacNonce}
    {g : DecFile F} {i j : Nat} {f : EncFile Fo} :
    g.encryptWith Fo env key sm sc i = .ok (f, j) ↔ ∃ m m' i1, F.toInternal g.map = .ok m ∧
      RMap.encrypt (env.encEnv key sm) g.metadata.partialEncryption m i = .ok (m', i1) ∧
      Mac.encrypt env.C env.nonce key g.metadata.lastModified sc g.metadata.mac i1 = .ok (f.metadata.mac, j) ∧
      f.metadata = decMetadata g.metadata f.metadata.mac ∧ Fo.encOfInternal env.C m' = some f.map := by
  unfold DecFile.encryptWith Env.encryptMetadata
  cases h1 : F.toInternal g.map with
  | error e => simp
  | ok m =>
    simp only
    cases h2 : RMap.encrypt (env.encEnv key sm) g.metadata.partialEncryption m i with
    | error e =>
      simp only [reduceCtorEq, false_iff]
      rintro ⟨m1, m', i1, h3, h4, _⟩
      cases h3
      rw [h2] at h4; cases h4
    | ok r =>
      obtain ⟨m', i1⟩ := r
      simp only
      cases h3 : Mac.encrypt env.C env.nonce key g.metadata.lastModified sc g.metadata.mac i1 with
      | error e =>
        simp only [reduceCtorEq, false_iff]
        rintro ⟨m1, m2, i2, h4, h5, h6, _⟩
        cases h4
        rw [h2] at h5; cases h5
        rw [h3] at h6; cases h6
      | ok r =>
        obtain ⟨mac, i2⟩ := r
        simp only
        cases h4 : Fo.encOfInternal env.C m' with
        | none =>
          simp only [reduceCtorEq, false_iff]
          rintro ⟨m1, m2, i3, h5, h6, h7, h8, h9⟩
          cases h5
          rw [h2] at h6; cases h6
          rw [h4] at h9; cases h9
        | some x =>
          simp only [Except.ok.injEq, Prod.mk.injEq]
          constructor
          · rintro ⟨rfl, rfl⟩
            exact ⟨m, m', i1, rfl, h2, h3, rfl, h4⟩
          · rintro ⟨m1, m2, i3, h5, h6, h7, h8, h9⟩
            cases h5
            rw [h2] at h6; cases h6
            rw [h3] at h7
            injection h7 with h7
            injection h7 with h7 h10
            rw [h4] at h9; cases h9
            obtain ⟨fm, fmd⟩ := f
            simp only at h7 h8 ⊢
            rw [h8, ← h7]
            exact ⟨rfl, h10⟩

end Rops
