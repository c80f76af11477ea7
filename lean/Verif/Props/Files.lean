import Verif.Lemmas.FileOps
import Verif.Spec.ToyFile
import Verif.Props.Maps
/-!
# Properties of creating, decrypting and re-encrypting files

C02, C10, C11, C13, C19 and C32.
-/

namespace Rops.Props
open Rops Spec

/-! ## C02 -/

/-- C02. A file made by the builder decrypts to the map it was built from in every process
whose private keys give a data key at all, into every format that can hold the values. -/
theorem C02_builder_file_decrypts {env : Env} (he : EnvLaws env) {F Fo : Format} {rep rep' : Value → Prop}
    (hF : Format.Lawful F rep) (hFo : Format.Lawful Fo rep') (b : Builder F) (m : RMap Value)
    (hb : F.toInternal b.map = .ok m) (hm : Fits env.fl rep b.partialEncryption m) (hm' : Holds rep' m)
    (i : Nat) (f : EncFile F) (j : Nat) (h : b.encrypt env i = .ok (f, j))
    (host : Host) (d : Bytes) (hr : (env.withHost host).retrieveDataKey f.metadata = .ok d) :
    ∃ g, f.decrypt Fo (env.withHost host) = .ok g ∧ Fo.toInternal g.map = .ok m := by
  obtain ⟨m', _, _, hh, _⟩ := holding_of_builder he hF hb hm h
  obtain ⟨g, h1, h2, _⟩ := decrypt_of_holding (he.withHost host) hFo (hh.withHost host) hm' hr
  exact ⟨g, h1, h2.read⟩

/-- C02. The private key of one age recipient given to the builder is enough, whatever other
age identities the process has. -/
theorem C02_any_recipient {env : Env} (he : EnvLaws env) {F Fo : Format} {rep rep' : Value → Prop}
    (hF : Format.Lawful F rep) (hFo : Format.Lawful Fo rep') (b : Builder F) (m : RMap Value)
    (hb : F.toInternal b.map = .ok m) (hm : Fits env.fl rep b.partialEncryption m) (hm' : Holds rep' m)
    (i : Nat) (f : EncFile F) (j : Nat) (h : b.encrypt env i = .ok (f, j))
    (host : Host) (ks : List env.A.Identity)
    (hr : retrievePrivateKeys (Age.parsePrivateKey env.A) host c!"age" = .ok ks)
    (k : env.A.Identity) (hks : k ∈ ks) (hk : env.A.toPublic k ∈ b.ageKeyIds) :
    ∃ g, f.decrypt Fo (env.withHost host) = .ok g ∧ Fo.toInternal g.map = .ok m := by
  obtain ⟨m', _, _, hh, _⟩ := holding_of_builder he hF hb hm h
  obtain ⟨_, _, _, im, _, _, _, h3, _, _, h6⟩ := Builder.encrypt_ok h
  have hk' : env.A.toPublic k ∈ keyIds f.metadata.integration .age := by
    rw [h6, (intoMetadata_ok h3).2.2.1, mem_addIds]
    exact .inr hk
  have := retrieve_of_identity (he.withHost host) hh.key_length (hh.withHost host).units hr hks hk'
  exact C02_builder_file_decrypts he hF hFo b m hb hm hm' i f j h host _ this

example : ∃ f j, Toy.builder.encrypt Toy.env 0 = .ok (f, j) ∧
    ∃ g, f.decrypt Format.yaml (Toy.env.withHost (Toy.host (.value c!"k7,k2") .notPresent)) = .ok g ∧
      Format.yaml.toInternal g.map = .ok Toy.docMap := by
  obtain ⟨f, j, h, _⟩ := Toy.builder_ok
  exact ⟨f, j, h, C02_any_recipient Toy.env_laws Format.json_lawful Format.yaml_lawful Toy.builder Toy.docMap Toy.doc_read
    Toy.docMap_fits (fun _ _ => trivial) 0 f j h _ [c!"k7", c!"k2"] rfl c!"k2" (.tail _ (.head _)) (by decide)⟩

/-! ## C10 -/

/-- The nonces of all ciphertexts of a file, the one of the MAC last. -/
def fileNonces {F : Format} (env : Env) (f : EncFile F) : Option (List Bytes) :=
  match F.encToInternal env.C env.rx (Resolved.ofConfig f.metadata.partialEncryption) f.map with
  | .ok m' => some (nonces m' ++ [f.metadata.mac.nonce])
  | .error _ => none

theorem nodup_range_concat {tape : Nat → Bytes} {i i1 i2 j : Nat} (hr : NoRepeat tape i j) (h1 : i ≤ i1)
    (h2 : i1 ≤ i2) (h3 : i2 < j) : ((List.range' i (i1 - i)).map tape ++ [tape i2]).Nodup := by
  rw [List.nodup_append]
  refine ⟨?_, by simp, ?_⟩
  · refine List.pairwise_map.2 (List.Pairwise.imp_of_mem ?_ (List.nodup_range' (s := i) (n := i1 - i)))
    intro a b ha hb hab hh
    rw [List.mem_range'_1] at ha hb
    exact hab (hr a b ha.1 (by omega) hb.1 (by omega) hh)
  · intro x hx y hy
    simp only [List.mem_singleton] at hy
    subst hy
    obtain ⟨a, ha, rfl⟩ := List.mem_map.1 hx
    rw [List.mem_range'_1] at ha
    intro hh
    have := hr a i2 ha.1 (by omega) (by omega) (by omega) hh
    omega

/-- C10. In a file made by the builder no two values, nor a value and the MAC, are encrypted
with the same nonce, if the random generator did not repeat meanwhile. -/
theorem C10_builder_nonces {env : Env} (he : EnvLaws env) {F : Format} {rep : Value → Prop}
    (hF : Format.Lawful F rep) (b : Builder F) (m : RMap Value)
    (hb : F.toInternal b.map = .ok m) (hm : Fits env.fl rep b.partialEncryption m)
    (i : Nat) (f : EncFile F) (j : Nat) (h : b.encrypt env i = .ok (f, j)) (hr : NoRepeat env.nonce i j) :
    ∃ ns, fileNonces env f = some ns ∧ ns.Nodup := by
  obtain ⟨m', i1, i2, hh, he', hle, hn, rfl⟩ := holding_of_builder he hF hb hm h
  have hh' := hh.read
  obtain ⟨h1, h2⟩ := C10_map_nonces (env.encEnv (env.newKey i) none) rfl _ _ _ _ _ he'
  refine ⟨_, by unfold fileNonces; rw [hh'], ?_⟩
  rw [h2, hn]
  exact nodup_range_concat (i := i + 1) (j := i2 + 1)
    (fun a b ha ha' hb hb' => hr a b (by omega) ha' (by omega) hb') h1 hle (by omega)

/-- C10. The same for encrypting a decrypted file anew. -/
theorem C10_encrypt_nonces {env : Env} (he : EnvLaws env) {F Fo : Format} {rep : Value → Prop}
    (hFo : Format.Lawful Fo rep) (g : DecFile F) (m : RMap Value) (hg : Plaintext env g m)
    (hm : Fits env.fl rep g.metadata.partialEncryption m) (d : Bytes) (hd : d.length = dataKeySize)
    (hw : AllWrap env.A env.K g.metadata.integration d) (hids : ∀ k, (keyIds g.metadata.integration k).Nodup)
    (i : Nat) (f : EncFile Fo) (j : Nat) (h : g.encrypt Fo env i = .ok (f, j)) (hr : NoRepeat env.nonce i j) :
    ∃ ns, fileNonces env f = some ns ∧ ns.Nodup := by
  unfold DecFile.encrypt at h
  split at h
  · cases h
  rename_i key hkey
  cases retrieve_of_allWrap he hd hw hkey
  obtain ⟨m', i1, hh, _, he', hn⟩ := holding_of_encryptWith he hFo hg hm hd hw hids (sm := none) (sc := none)
    (fun t ht => by cases ht) (fun t ht => by cases ht) h
  obtain ⟨h1, h2⟩ := C10_map_nonces (env.encEnv d none) rfl _ _ _ _ _ he'
  refine ⟨_, by unfold fileNonces; rw [hh.read], ?_⟩
  simp only [Mac.nonceFor, Prod.mk.injEq] at hn
  rw [h2, hn.1]
  exact nodup_range_concat (i := i) (j := j) hr h1 (Nat.le_refl _) (by omega)

example : ∃ f j ns, Toy.builder.encrypt Toy.env 0 = .ok (f, j) ∧ fileNonces Toy.env f = some ns ∧ ns.Nodup := by
  obtain ⟨f, j, h, hj⟩ := Toy.builder_ok
  obtain ⟨ns, h1, h2⟩ := C10_builder_nonces Toy.env_laws Format.json_lawful Toy.builder Toy.docMap Toy.doc_read
    Toy.docMap_fits 0 f j h
    (fun a b ha ha' hb hb' => Toy.env_noRepeat a b ha (by omega) hb (by omega))
  exact ⟨f, j, ns, h, h1, h2⟩

/-! ## C19 -/

/-- C19. A file decrypts exactly when a data key is retrieved, the map can be read and
decrypted with it, and the decrypted stored MAC equals the MAC of the decrypted map under the
settings of the file; the result is that map and the metadata of the file. -/
theorem C19_decrypt_iff_mac {env : Env} (hH : env.H.Streaming) {F Fo : Format} (f : EncFile F) (g : DecFile Fo) :
    f.decrypt Fo env = .ok g ↔ ∃ key m' m mac, env.retrieveDataKey f.metadata = .ok key ∧
      F.encToInternal env.C env.rx (Resolved.ofConfig f.metadata.partialEncryption) f.map = .ok m' ∧
      RMap.decrypt { C := env.C, fl := env.fl, key } m' = .ok m ∧
      env.C.decrypt f.metadata.mac.nonce key f.metadata.mac.data f.metadata.lastModified.toBytes f.metadata.mac.tag
        = some mac ∧
      mac = macText env.H env.rx f.metadata.partialEncryption f.metadata.macOnlyEncrypted m ∧
      Fo.ofInternal m = some g.map ∧ g.metadata = decMetadata f.metadata mac := by
  rw [decrypt_ok_iff]
  simp only [Env.macOf_eq hH]
  constructor
  · rintro ⟨key, m', m, h1, h2, h3, h4, h5, h6⟩
    exact ⟨key, m', m, _, h1, h2, h3, h4, rfl, h5, h6⟩
  · rintro ⟨key, m', m, _, h1, h2, h3, h4, rfl, h5, h6⟩
    exact ⟨key, m', m, h1, h2, h3, h4, h5, h6⟩

/-- C19. If everything decrypts but the MACs differ, the result is an error (for a stored MAC
that is text, the mismatch error with both MACs). -/
theorem C19_mismatch {env : Env} (hH : env.H.Streaming) {F Fo : Format} (f : EncFile F) (key : Bytes)
    (m' : RMap EncLeaf) (m : RMap Value) (mac : Str) (h1 : env.retrieveDataKey f.metadata = .ok key)
    (h2 : F.encToInternal env.C env.rx (Resolved.ofConfig f.metadata.partialEncryption) f.map = .ok m')
    (h3 : RMap.decrypt { C := env.C, fl := env.fl, key } m' = .ok m)
    (h4 : env.C.decrypt f.metadata.mac.nonce key f.metadata.mac.data f.metadata.lastModified.toBytes f.metadata.mac.tag
        = some (utf8 mac))
    (hne : utf8 mac ≠ macText env.H env.rx f.metadata.partialEncryption f.metadata.macOnlyEncrypted m) :
    ∃ computed, utf8 computed =
        macText env.H env.rx f.metadata.partialEncryption f.metadata.macOnlyEncrypted m ∧
      f.decrypt Fo env = .error (.macMismatch computed mac) ∧
      f.decryptAndSave Fo env = .error (.macMismatch computed mac) := by
  obtain ⟨t, ht⟩ := Env.macOf_text env (decMetadata f.metadata (utf8 mac)) m
  refine ⟨t, ?_, ?_⟩
  · rw [← ht, Env.macOf_eq hH]
    rfl
  have hmd := decryptMetadata_ok.2 ⟨key, utf8 mac, h1, h4, rfl⟩
  have hval : env.validateMac m (decMetadata f.metadata (utf8 mac)) = .error (.macMismatch t mac) := by
    have hc : env.macOf (decMetadata f.metadata (utf8 mac)) m ≠ (decMetadata f.metadata (utf8 mac)).mac := by
      rw [Env.macOf_eq hH]
      exact fun e => hne e.symm
    rw [validateMac_ne ht hc]
    show (match utf8? (utf8 mac) with | some _ => _ | none => _) = _
    rw [utf8?_utf8]
  have h2' : F.encToInternal env.C env.rx
      (Resolved.ofConfig (decMetadata f.metadata (utf8 mac)).partialEncryption) f.map = .ok m' := h2
  have h3s := RMap.decryptAndSave_of_decrypt h3
  constructor
  · unfold EncFile.decrypt
    simp only [hmd, h2']
    have h3' : RMap.decrypt (env.decEnv key) m' = .ok m := h3
    simp only [h3', hval]
  · unfold EncFile.decryptAndSave
    simp only [hmd, h2']
    have h3' : RMap.decryptAndSave (env.decEnv key) m' = .ok (m, savedAll (leaves m') (leaves m) []) := h3s
    simp only [h3', hval]

/-- C19. Both decryptions agree: `decrypt_and_save_parameters` gives a file exactly when
`decrypt` gives it. -/
theorem C19_decrypt_and_save_agree {env : Env} {F Fo : Format} (f : EncFile F) (g : DecFile Fo) :
    (∃ p, f.decryptAndSave Fo env = .ok (g, p)) ↔ f.decrypt Fo env = .ok g := by
  rw [decrypt_ok_iff]
  constructor
  · rintro ⟨p, h⟩
    obtain ⟨key, m', m, h1, h2, h3, h4, h5, h6, _⟩ := decryptAndSave_ok_iff.1 h
    exact ⟨key, m', m, h1, h2, h3, h4, h5, h6⟩
  · rintro ⟨key, m', m, h1, h2, h3, h4, h5, h6⟩
    exact ⟨_, decryptAndSave_ok_iff.2 ⟨key, m', m, h1, h2, h3, h4, h5, h6, rfl⟩⟩

/-! ## C11 -/

/-- C11. Decrypting a produced file while saving parameters and encrypting again without
changes gives the identical file and draws no randomness, if encrypted values with the same key
path and value have the same nonce (in particular if there are no two such values). The
plaintext may be kept in any format meanwhile, and the processes may differ. -/
theorem C11_saved_parameters_reproduce {env : Env} (he : EnvLaws env) {F Fo : Format} {rep rep' : Value → Prop}
    (hFo : Format.Lawful Fo rep') {f : EncFile F} {key : Bytes} {m : RMap Value} {m' : RMap EncLeaf}
    (h : Holding env rep f key m m') (hm' : Holds rep' m)
    (hu : ∀ (a b : Nat) (p q : List Str) (v : Value) (x y : EncValue), (leaves m)[a]? = some (p, v) → (leaves m)[b]? = some (q, v) →
      (leaves m')[a]? = some (p, .encrypted x) → (leaves m')[b]? = some (q, .encrypted y) →
      pathText p = pathText q → x.nonce = y.nonce)
    (host host' : Host) (g : DecFile Fo) (p : SavedParameters)
    (hd : f.decryptAndSave Fo (env.withHost host) = .ok (g, p)) (i : Nat) :
    g.encryptSaved F (env.withHost host') p i = .ok (f, i) := by
  obtain ⟨_, hg, hmd, rfl⟩ := of_decryptAndSave_holding (he.withHost host) hFo (h.withHost host) hm' hd
  have e1 : g.metadata.partialEncryption = f.metadata.partialEncryption := by rw [hmd]; rfl
  have e2 : g.metadata.macOnlyEncrypted = f.metadata.macOnlyEncrypted := by rw [hmd]; rfl
  have e3 : g.metadata.lastModified = f.metadata.lastModified := by rw [hmd]; rfl
  refine encryptWith_ok_iff.2 ⟨m, m', i, hg.read, ?_, ?_, ?_, h.written⟩
  · rw [e1]
    refine reencrypt_sealed (env := (env.withHost host').encEnv key (some (savedAll (leaves m') (leaves m) []))) rfl
      h.fits.keys h.sealed (fun n q e v hl hv => ?_) i
    refine savedAll_get_eq (fun a b q1 q2 q1' q2' x y w h1 h2 h3 h4 h5 => ?_) hl hv
    obtain ⟨⟨p1, v1⟩, z1, r1⟩ := h.sealed.2.getElem' h1
    obtain ⟨⟨p2, v2⟩, z2, r2⟩ := h.sealed.2.getElem' h2
    rw [h3] at z1; cases z1
    rw [h4] at z2; cases z2
    cases r1.1; cases r2.1
    exact hu a b _ _ w x y h3 h4 h1 h2 h5
  · have hmac := hg.mac
    rw [e1, e2] at hmac
    unfold Mac.encrypt Mac.nonceFor
    simp only [if_pos]
    have := h.mac
    rw [e3, hmac]
    have hm2 : (env.withHost host').C.encrypt f.metadata.mac.nonce key (macText (env.withHost host).H
      (env.withHost host).rx f.metadata.partialEncryption f.metadata.macOnlyEncrypted m)
      f.metadata.lastModified.toBytes = some (f.metadata.mac.data, f.metadata.mac.tag) := this
    rw [hm2]
    simp only
    rw [← h.mac_type]
  · rw [hmd]; rfl

/-- C11. For files with two encrypted values that share key path and value the first such cycle
may change nonces, but every later one reproduces the file. -/
theorem C11_second_cycle {env : Env} (he : EnvLaws env) {F Fo : Format} {rep rep' : Value → Prop}
    (hF : Format.Lawful F rep) (hFo : Format.Lawful Fo rep') {f : EncFile F} {key : Bytes} {m : RMap Value}
    {m' : RMap EncLeaf} (h : Holding env rep f key m m') (hm' : Holds rep' m) (host host' host2 host2' : Host)
    (g g1 : DecFile Fo) (p p1 : SavedParameters) (hd : f.decryptAndSave Fo (env.withHost host) = .ok (g, p))
    (i j : Nat) (f1 : EncFile F) (h1 : g.encryptSaved F (env.withHost host') p i = .ok (f1, j))
    (hd1 : f1.decryptAndSave Fo (env.withHost host2) = .ok (g1, p1)) (i1 : Nat) :
    j = i ∧ g1.encryptSaved F (env.withHost host2') p1 i1 = .ok (f1, i1) := by
  obtain ⟨_, hg, hmd, rfl⟩ := of_decryptAndSave_holding (he.withHost host) hFo (h.withHost host) hm' hd
  have e1 : g.metadata.partialEncryption = f.metadata.partialEncryption := by rw [hmd]; rfl
  have e4 : g.metadata.integration = f.metadata.integration := by rw [hmd]; rfl
  obtain ⟨m1', i2, hh, h2, h3, h4⟩ := holding_of_encryptWith (he.withHost host') hF (F := Fo) (g := g) (m := m)
    ⟨hg.read, hg.mac⟩ (by rw [e1]; exact h.fits) h.key_length (by rw [e4]; exact h.units) (by rw [e4]; exact h.ids)
    (sealed_saved_sized h.sealed) (fun s hs => by cases hs; exact h.mac_sized.nonce_length) h1
  have hsrc := nonce_source (RMap.encrypt_ok_iff.1 h3).2
  -- all nonces of the new file come from the table
  have htab : ∀ (n : Nat) (q : List Str) (e : EncValue) (v : Value), (leaves m1')[n]? = some (q, .encrypted e) →
      (leaves m)[n]? = some (q, v) → (savedAll (leaves m') (leaves m) []).get (pathText q) v = some e.nonce := by
    intro n q e v hl hv
    exact table_nonce (env := (env.withHost host').encEnv key (some (savedAll (leaves m') (leaves m) []))) rfl h3 hl hv (by
      obtain ⟨⟨q2, l2⟩, z, r⟩ := h.sealed.2.getElem hv
      cases r.1
      obtain ⟨⟨q3, v3⟩, z3, r3⟩ := hh.sealed.2.getElem' hl
      rw [hv] at z3; cases z3
      rcases r3.2 with ⟨_, hx⟩ | ⟨hnp, _⟩
      · cases hx
      · rcases r.2 with ⟨hpl, _⟩ | ⟨_, e2, he2, _⟩
        · have : Plain env.rx f1.metadata.partialEncryption q := by
            have : f1.metadata.partialEncryption = f.metadata.partialEncryption := by rw [h2]; exact e1
            rw [this]; exact hpl
          exact absurd this hnp
        · cases he2
          exact savedAll_get_isSome z hv)
  have hj : j = i := by
    have hi2 : i2 = i := by
      have := reencrypt_sealed (env := (env.withHost host').encEnv key (some (savedAll (leaves m') (leaves m) []))) rfl
        (m := m) (m' := m1') (cfg := g.metadata.partialEncryption) (by rw [e1]; exact h.fits.keys)
        (by have := hh.sealed; rw [h2] at this; exact this) htab i
      rw [h3] at this
      cases this
      rfl
    simp only [Mac.nonceFor, if_pos, Prod.mk.injEq] at h4
    rw [h4.2, hi2]
  refine ⟨hj, ?_⟩
  exact C11_saved_parameters_reproduce he hFo hh.ofHost hm'
    (fun a b p q v x y ha hb hxa hyb hpq => by
      have h5 := htab a p x v hxa ha
      have h6 := htab b q y v hyb hb
      rw [hpq, h6] at h5
      injection h5 with h5
      exact h5.symm) host2 host2' g1 p1 hd1 i1

/-- A file with the same value twice in a list, both encrypted. -/
def twinBuilder : Builder Format.json where
  map := [(c!"l", .seq [.leaf (.str c!"x"), .leaf (.str c!"x")])]
  partialEncryption := none
  macOnlyEncrypted := none
  ageKeyIds := [c!"pk1"]
  kmsKeyIds := []

/-- C11. The condition is needed: a freshly built file with the same value twice in a list does
not come back identical, the two values then share a nonce. -/
theorem C11_twin_values_differ : ∃ (f f1 : EncFile Format.json) (g : DecFile Format.json) (p : SavedParameters) (j : Nat),
    twinBuilder.encrypt Toy.env 0 = .ok (f, j) ∧ f.decryptAndSave Format.json Toy.env = .ok (g, p) ∧
    g.encryptSaved Format.json Toy.env p j = .ok (f1, j) ∧ f1 ≠ f ∧
    (∃ ns, fileNonces Toy.env f = some ns ∧ ns.Nodup) ∧ (∃ ns, fileNonces Toy.env f1 = some ns ∧ ¬ ns.Nodup) := by
  have hc : (match twinBuilder.encrypt Toy.env 0 with
    | .error _ => false
    | .ok (f, j) => match f.decryptAndSave Format.json Toy.env with
      | .error _ => false
      | .ok (g, p) => match g.encryptSaved Format.json Toy.env p j with
        | .error _ => false
        | .ok (f1, j1) => j1 == j && fileNonces Toy.env f == some [[1, 0], [2, 0], [4, 0]] &&
          fileNonces Toy.env f1 == some [[2, 0], [2, 0], [4, 0]]) = true := by decide +kernel
  split at hc
  · cases hc
  rename_i f j h1
  split at hc
  · cases hc
  rename_i g p h2
  split at hc
  · cases hc
  rename_i f1 j1 h3
  simp only [Bool.and_eq_true, beq_iff_eq] at hc
  obtain ⟨⟨rfl, h4⟩, h5⟩ := hc
  refine ⟨f, f1, g, p, j1, h1, h2, h3, ?_, ⟨_, h4, by decide⟩, _, h5, by decide⟩
  rintro rfl
  rw [h4] at h5
  exact absurd h5 (by decide)

/-- The file of `Toy.builder` meets the hypotheses of C11. -/
example : ∃ f g p j, Toy.builder.encrypt Toy.env 0 = .ok (f, j) ∧ f.decryptAndSave Format.yaml Toy.env = .ok (g, p) ∧
    g.encryptSaved Format.json Toy.env p 77 = .ok (f, 77) := by
  obtain ⟨f, j, h, hj⟩ := Toy.builder_ok
  obtain ⟨m', i1, i2, hh, he', hle, hn, _⟩ := holding_of_builder Toy.env_laws Format.json_lawful Toy.doc_read Toy.docMap_fits h
  have hm : Holds yamlRep Toy.docMap := fun _ _ => trivial
  have hr := retrieve_of_identity (k := c!"k1") (ks := [c!"k1"]) Toy.env_laws hh.key_length hh.units rfl (.head _) (by
    obtain ⟨_, _, _, im, _, _, _, h3, _, _, h6⟩ := Builder.encrypt_ok h
    rw [h6, (intoMetadata_ok h3).2.2.1]; decide)
  obtain ⟨g, hg, _⟩ := decrypt_of_holding Toy.env_laws Format.yaml_lawful hh hm hr
  obtain ⟨p, hp⟩ := (C19_decrypt_and_save_agree f g).2 hg
  refine ⟨f, g, p, j, h, hp, ?_⟩
  refine C11_saved_parameters_reproduce Toy.env_laws Format.yaml_lawful hh hm ?_ Toy.env.host Toy.env.host g p hp 77
  intro a b p q v x y h1 h2 h3 h4 h5
  have hl : leaves Toy.docMap = [([c!"user"], Value.string c!"root"), ([c!"db", c!"port_plain"], .integer 5432),
      ([c!"db", c!"pw"], .string c!"x"), ([c!"l"], .boolean true), ([c!"l"], .float c!"1.5"),
      ([c!"l", c!"a_plain"], .integer (-1))] := rfl
  have hab : a = b := by
    have key : ∀ a b : Fin 6, (leaves Toy.docMap)[a]?.map Prod.snd = (leaves Toy.docMap)[b]?.map Prod.snd → a = b := by
      decide
    have ha : a < 6 := by
      have := (List.getElem?_eq_some_iff.1 h1).1
      rw [hl] at this; exact this
    have hb : b < 6 := by
      have := (List.getElem?_eq_some_iff.1 h2).1
      rw [hl] at this; exact this
    have := key ⟨a, ha⟩ ⟨b, hb⟩ (by
      show (leaves Toy.docMap)[a]?.map Prod.snd = (leaves Toy.docMap)[b]?.map Prod.snd
      rw [h1, h2]; rfl)
    simpa using this
  subst hab
  rw [h3] at h4
  cases h4
  rfl

/-! ## C13 -/

/-- C13. Encrypting with saved parameters uses the saved MAC nonce exactly when the MAC is the
saved one, and a fresh draw otherwise. -/
theorem C13_mac_nonce_reuse {env : Env} {F Fo : Format} (p : SavedParameters) (g : DecFile F) (i j : Nat) (f : EncFile Fo)
    (h : g.encryptSaved Fo env p i = .ok (f, j)) :
    (g.metadata.mac = p.macNonce.mac → f.metadata.mac.nonce = p.macNonce.nonce) ∧
    (g.metadata.mac ≠ p.macNonce.mac → ∃ k, i ≤ k ∧ k < j ∧ f.metadata.mac.nonce = env.nonce k) := by
  obtain ⟨m, m', i1, h1, h2, h3, h4, h5⟩ := encryptWith_ok_iff.1 h
  have hn := (Mac.encrypt_ok h3).2.2
  have hle := (nonce_source (RMap.encrypt_ok_iff.1 h2).2).1
  constructor
  · intro he
    simp only [Mac.nonceFor, he, if_pos, Prod.mk.injEq] at hn
    exact hn.1
  · intro he
    have he' : ¬ p.macNonce.mac = g.metadata.mac := fun e => he e.symm
    simp only [Mac.nonceFor, if_neg he', Prod.mk.injEq] at hn
    exact ⟨i1, hle, by omega, hn.1⟩

/-- C13. An edit that changes the map but not the hashed bytes encrypts the same MAC again
under the same key and nonce, for the date of the edit. -/
theorem C13_edit_reuses_mac_nonce {env : Env} (he : EnvLaws env) {F Fo : Format} {rep rep' : Value → Prop}
    (hFo : Format.Lawful Fo rep') {f : EncFile F} {key : Bytes} {m : RMap Value} {m' : RMap EncLeaf}
    (h : Holding env rep f key m m') (hm' : Holds rep' m) (g g1 : DecFile Fo) (p : SavedParameters)
    (hd : f.decryptAndSave Fo env = .ok (g, p)) (other : Fo.Map) (m1 : RMap Value)
    (ho : Fo.toInternal other = .ok m1) (c : Nat) (hs : g.setMap env other c = .ok g1)
    (hne : Fo.eq g.map other = false)
    (hmac : macInput env.rx f.metadata.partialEncryption (f.metadata.macOnlyEncrypted.getD false) m1 =
      macInput env.rx f.metadata.partialEncryption (f.metadata.macOnlyEncrypted.getD false) m)
    (i j : Nat) (f1 : EncFile F) (h1 : g1.encryptSaved F env p i = .ok (f1, j)) :
    f1.metadata.lastModified = (env.clock c).truncate ∧ f1.metadata.mac.nonce = f.metadata.mac.nonce ∧
    ∃ mac, env.C.encrypt f.metadata.mac.nonce key mac f.metadata.lastModified.toBytes =
        some (f.metadata.mac.data, f.metadata.mac.tag) ∧
      env.C.encrypt f.metadata.mac.nonce key mac (env.clock c).truncate.toBytes =
        some (f1.metadata.mac.data, f1.metadata.mac.tag) := by
  obtain ⟨_, hg, hmd, rfl⟩ := of_decryptAndSave_holding he hFo h hm' hd
  have e1 : g.metadata.partialEncryption = f.metadata.partialEncryption := by rw [hmd]; rfl
  have e2 : g.metadata.macOnlyEncrypted = f.metadata.macOnlyEncrypted := by rw [hmd]; rfl
  have hmacg : g.metadata.mac = macText env.H env.rx f.metadata.partialEncryption f.metadata.macOnlyEncrypted m := by
    rw [hg.mac, e1, e2]
  unfold DecFile.setMap at hs
  simp only [hne, ho, Bool.not_false, if_true] at hs
  split at hs
  · cases hs
  rename_i map hmap
  injection hs with hs
  have hlm : g1.metadata.lastModified = (env.clock c).truncate := by rw [← hs]
  have hmac1 : g1.metadata.mac = g.metadata.mac := by
    rw [← hs, hmacg]
    show env.macOf g.metadata m1 = _
    rw [Env.macOf_eq he.hasher, e1, e2, macText, macText, hmac]
  have hnonce := (C13_mac_nonce_reuse _ g1 i j f1 h1).1 hmac1
  obtain ⟨_, _, i1, _, _, h3, h4, _⟩ := encryptWith_ok_iff.1 h1
  have hlf : f1.metadata.lastModified = (env.clock c).truncate := by rw [h4]; exact hlm
  refine ⟨hlf, hnonce, _, h.mac, ?_⟩
  have h5 := (Mac.encrypt_ok h3).1
  rw [hnonce, hmac1, hmacg, hlm] at h5
  exact h5

/-- The edit of the example below: the map without the entry "none", which is not hashed. -/
def editedDoc : Format.json.Map :=
  [(c!"user", .leaf (.str c!"root")),
   (c!"db", .map [(c!"port_plain", .leaf (.num (.posInt 5432))), (c!"pw", .leaf (.str c!"x"))]),
   (c!"l", .seq [.leaf (.bool true), .leaf (.num (.float c!"1.5")), .map [(c!"a_plain", .leaf (.num (.negInt (-1))))]])]

/-- C13. Such edits exist: two versions of a file whose MACs share key and nonce while the
authenticated dates differ. -/
theorem C13_mac_nonce_reused_for_other_date :
    ∃ (f f1 : EncFile Format.json) (g g1 : DecFile Format.json) (p : SavedParameters) (j j1 : Nat),
    Toy.builder.encrypt Toy.env 0 = .ok (f, j) ∧ f.decryptAndSave Format.json Toy.env = .ok (g, p) ∧
    g.setMap Toy.env editedDoc 50 = .ok g1 ∧ g1.encryptSaved Format.json Toy.env p j = .ok (f1, j1) ∧
    f1.metadata.mac.nonce = f.metadata.mac.nonce ∧
    f1.metadata.lastModified.toBytes ≠ f.metadata.lastModified.toBytes := by
  have hc : (match Toy.builder.encrypt Toy.env 0 with
    | .error _ => false
    | .ok (f, j) => match f.decryptAndSave Format.json Toy.env with
      | .error _ => false
      | .ok (g, p) => match g.setMap Toy.env editedDoc 50 with
        | .error _ => false
        | .ok g1 => match g1.encryptSaved Format.json Toy.env p j with
          | .error _ => false
          | .ok (f1, _) => f1.metadata.mac.nonce == f.metadata.mac.nonce &&
            (f1.metadata.lastModified.toBytes != f.metadata.lastModified.toBytes)) = true := by decide +kernel
  split at hc
  · cases hc
  rename_i f j h1
  split at hc
  · cases hc
  rename_i g p h2
  split at hc
  · cases hc
  rename_i g1 h3
  split at hc
  · cases hc
  rename_i f1 j1 h4
  simp only [Bool.and_eq_true, beq_iff_eq, bne_iff_ne] at hc
  exact ⟨f, f1, g, g1, p, j, j1, h1, h2, h3, h4, hc.1, hc.2⟩

/-! ## C32 -/

/-- C32. Without any key id nothing is built. -/
theorem C32_no_keys {F : Format} (env : Env) (b : Builder F) (ha : b.ageKeyIds = []) (hk : b.kmsKeyIds = []) (i : Nat) :
    ∃ e, b.encrypt env i = .error e ∧ ((∃ m, F.toInternal b.map = .ok m) → e = .missingKeys) := by
  unfold Builder.encrypt
  simp only [ha, hk, KeyEnv.intoMetadata]
  cases F.toInternal b.map with
  | error e => exact ⟨_, rfl, by rintro ⟨m, hm⟩; cases hm⟩
  | ok m => exact ⟨_, rfl, fun _ => rfl⟩

/-- C32. A built file has a unit for exactly the given key ids, one for each, and each unit
wraps the data key that was generated for the file. -/
theorem C32_units {F : Format} {env : Env} (b : Builder F) (i : Nat) (f : EncFile F) (j : Nat)
    (h : b.encrypt env i = .ok (f, j)) :
    (keyIds f.metadata.integration .age).Nodup ∧ (keyIds f.metadata.integration .kms).Nodup ∧
    (∀ id, id ∈ keyIds f.metadata.integration .age ↔ id ∈ b.ageKeyIds) ∧
    (∀ id, id ∈ keyIds f.metadata.integration .kms ↔ id ∈ b.kmsKeyIds) ∧
    AllWrap env.A env.K f.metadata.integration (env.newKey i) ∧ ¬ (b.ageKeyIds = [] ∧ b.kmsKeyIds = []) := by
  obtain ⟨_, _, _, im, _, _, _, h3, _, _, h6⟩ := Builder.encrypt_ok h
  obtain ⟨h0, hw, k1, k2, _⟩ := intoMetadata_ok h3
  rw [h6]
  simp only [k1, k2]
  refine ⟨addIds_nil_nodup _, addIds_nil_nodup _, fun id => ?_, fun id => ?_, hw, h0⟩
  · rw [mem_addIds]; simp
  · rw [mem_addIds]; simp

/-- C32. The units are in the order in which their key ids were given; this is the order in which
they are tried when the file is decrypted (C26). -/
theorem C32_unit_order {F : Format} {env : Env} (b : Builder F) (i : Nat) (f : EncFile F) (j : Nat)
    (h : b.encrypt env i = .ok (f, j)) :
    keyIds f.metadata.integration .age = addIds [] b.ageKeyIds ∧ keyIds f.metadata.integration .kms = addIds [] b.kmsKeyIds := by
  obtain ⟨_, _, _, im, _, _, _, h3, _, _, h6⟩ := Builder.encrypt_ok h
  obtain ⟨_, _, k1, k2, _⟩ := intoMetadata_ok h3
  rw [h6]
  exact ⟨k1, k2⟩

example : addIds [] [c!"b", c!"a", c!"b", c!"c"] = [c!"b", c!"a", c!"c"] := by decide

/-- C32. The key ids of a builder are those added, in order. -/
theorem C32_added_ids {F : Format} (b : Builder F) (ids : List (Kind.Id .age)) (ids' : List (Kind.Id .kms)) :
    (b.addKeys .age ids).ageKeyIds = b.ageKeyIds ++ ids ∧ (b.addKeys .age ids).kmsKeyIds = b.kmsKeyIds ∧
    (b.addKeys .kms ids').kmsKeyIds = b.kmsKeyIds ++ ids' ∧ (b.addKeys .kms ids').ageKeyIds = b.ageKeyIds := by
  have ha : ∀ (ids : List (Kind.Id .age)) (b : Builder F), (b.addKeys .age ids).ageKeyIds = b.ageKeyIds ++ ids ∧
      (b.addKeys .age ids).kmsKeyIds = b.kmsKeyIds := by
    intro ids
    induction ids with
    | nil => intro b; simp [Builder.addKeys]
    | cons x r ih =>
      intro b
      have := ih (b.addKey .age x)
      simp only [Builder.addKeys, List.foldl_cons, Builder.addKey] at this ⊢
      rw [this.1, this.2]
      simp
  have hk : ∀ (ids : List (Kind.Id .kms)) (b : Builder F), (b.addKeys .kms ids).kmsKeyIds = b.kmsKeyIds ++ ids ∧
      (b.addKeys .kms ids).ageKeyIds = b.ageKeyIds := by
    intro ids
    induction ids with
    | nil => intro b; simp [Builder.addKeys]
    | cons x r ih =>
      intro b
      have := ih (b.addKey .kms x)
      simp only [Builder.addKeys, List.foldl_cons, Builder.addKey] at this ⊢
      rw [this.1, this.2]
      simp
  exact ⟨(ha ids b).1, (ha ids b).2, (hk ids' b).1, (hk ids' b).2⟩

example : ∃ f j, Toy.builder.encrypt Toy.env 0 = .ok (f, j) ∧
    keyIds f.metadata.integration .age = [c!"pk1", c!"pk2"] := by
  obtain ⟨f, j, h, _⟩ := Toy.builder_ok
  obtain ⟨_, _, _, im, _, _, _, h3, _, _, h6⟩ := Builder.encrypt_ok h
  exact ⟨f, j, h, by rw [h6, (intoMetadata_ok h3).2.2.1]; decide⟩

end Rops.Props
