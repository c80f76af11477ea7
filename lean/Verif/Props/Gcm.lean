import Verif.Lemmas.Gcm
import Verif.Props.Files
import Verif.Lemmas.Floats
/-!
# C75: AES-256-GCM and SHA-512
-/

namespace Rops.Props
open Spec

/-- **C75.** What is assumed of a cipher holds for AES-256-GCM. -/
theorem C75_cipher : aesGcm.Lawful where
  decrypt_encrypt := by
    intro n k p a c t h
    simp only [aesGcm] at h ⊢
    split at h
    · cases h
    · rename_i hl
      cases h
      rw [if_neg (by rw [gctr_length]; omega), if_pos rfl, gctr_gctr]
  tag_length := by
    intro n k p a c t h
    simp only [aesGcm] at h
    split at h
    · cases h
    · cases h
      exact natBytes_length _ _
  name_no_comma := by decide

/-- **C75.** It encrypts everything up to 64 GiB, to as many bytes. -/
theorem C75_cipher_fails (n k p a : Bytes) : aesGcm.encrypt n k p a = none ↔ 2 ^ 36 < p.length ∨ 2 ^ 36 < a.length := by
  simp only [aesGcm]
  split
  · rename_i h
    exact ⟨fun _ => h, fun _ => rfl⟩
  · rename_i h
    exact ⟨(fun h => nomatch h), fun h' => absurd h' h⟩

theorem C75_cipher_length {n k p a c t : Bytes} (h : aesGcm.encrypt n k p a = some (c, t)) : c.length = p.length ∧ t.length = 16 := by
  refine ⟨?_, C75_cipher.tag_length h⟩
  simp only [aesGcm] at h
  split at h
  · cases h
  · cases h
    exact gctr_length _ _ _

/-- **C75.** It accepts exactly what it made: the whole tag is compared, and nothing else is read as the same text. -/
theorem C75_cipher_accepts {n k p a c t : Bytes} (hc : c.length ≤ 2 ^ 36) :
    aesGcm.decrypt n k c a t = some p ↔ aesGcm.encrypt n k p a = some (c, t) := by
  refine ⟨fun h => ?_, C75_cipher.decrypt_encrypt⟩
  simp only [aesGcm] at h ⊢
  split at h
  · cases h
  · rename_i hl
    split at h
    · rename_i ht
      cases h
      rw [if_neg (by rw [gctr_length]; omega), gctr_gctr, ht]
    · cases h

/-- The data key of the tests (crates/lib/src/cryptography/data_key.rs:63). -/
def mockKey : Bytes :=
  [254, 79, 93, 103, 195, 165, 169, 238, 35, 187, 236, 95, 222, 243, 40, 26, 130, 128, 59, 176, 15, 195, 55, 93, 129, 212, 57,
    80, 15, 181, 72, 114]

/-- The nonce of the tests (crates/lib/src/cryptography/nonce.rs:47). -/
def mockNonce : Bytes :=
  [89, 68, 40, 65, 58, 209, 95, 15, 237, 82, 12, 41, 153, 33, 186, 247, 21, 173, 119, 151, 85, 49, 247, 188, 169, 73, 114,
    213, 80, 124, 185, 195]

/-- The ciphertext and the tag of the tests (encrypted_data.rs:26, authorization_tag.rs:30). -/
example : aesGcm.encrypt mockNonce mockKey (utf8 c!"world!") (utf8 c!"hello:") =
    some ([221, 45, 68, 245, 169, 191], [157, 5, 3, 146, 232, 116, 57, 29, 92, 141, 30, 97, 24, 46, 99, 59]) := by decide +kernel

/-- FIPS 197, C.3. -/
example : aesBlock (aesKeys (natBytes 32 0x000102030405060708090a0b0c0d0e0f101112131415161718191a1b1c1d1e1f))
    0x00112233445566778899aabbccddeeff = 0x8ea2b7ca516745bfeafc49904b496089 := by decide +kernel

/-- **C75.** The S-box is the one of FIPS 197, 5.1.1: the inverse, then an affine map. -/
theorem C75_sbox : ∀ x < 256, ∃ y < 256, (x = 0 ∧ y = 0 ∨ gf256 x y = 1) ∧
    subByte x = y ^^^ rotl8 1 y ^^^ rotl8 2 y ^^^ rotl8 3 y ^^^ rotl8 4 y ^^^ 0x63 := by
  have h : ∀ x < 256, gf256Inv x < 256 ∧ (x = 0 ∧ gf256Inv x = 0 ∨ gf256 x (gf256Inv x) = 1) ∧
      subByte x = gf256Inv x ^^^ rotl8 1 (gf256Inv x) ^^^ rotl8 2 (gf256Inv x) ^^^ rotl8 3 (gf256Inv x) ^^^ rotl8 4 (gf256Inv x) ^^^ 0x63 := by
    decide +kernel
  exact fun x hx => ⟨_, h x hx⟩

/-- **C75.** What is assumed of a hash holds for SHA-512. -/
theorem C75_hash : sha512.Streaming where
  update_append s a b := by
    apply Subtype.ext
    show ShaState.update (ShaState.update s.1 a) b = ShaState.update s.1 (a ++ b)
    obtain ⟨s, hs⟩ := s
    unfold ShaState.update
    simp only [← List.append_assoc]
    rw [absorb_append (n := (s.rest ++ a).length) (Nat.le_refl _)]
    simp only [List.length_append, Nat.add_assoc]
  update_nil s := by
    apply Subtype.ext
    show ShaState.update s.1 [] = s.1
    obtain ⟨s, hs⟩ := s
    unfold ShaState.update
    simp only [List.append_nil, List.length_nil, Nat.add_zero]
    cases hn : s.rest.length with
    | zero => rfl
    | succ n => simp only [absorb, hs, if_true]

/-- **C75.** And it is SHA-512: the compression function applied to the pieces of the padded message. -/
theorem C75_digest {m padded : Bytes} {p : List Bytes} (hm : Padded m padded) (hp : Pieces padded p) :
    sha512.digest m = shaText (p.foldl ShaWords.compress shaInit) := by
  obtain ⟨z, rfl, hz, hl⟩ := hm
  have h1 : (sha512.update sha512.init m).1 = (⟨(absorb m.length shaInit m).1, (absorb m.length shaInit m).2, m.length⟩ : ShaState) := by
    show ShaState.update ⟨shaInit, [], 0⟩ m = _
    simp [ShaState.update]
  obtain ⟨q, h2, h3⟩ := absorb_rest m.length shaInit m (Nat.le_refl _)
  show ShaState.finalize (sha512.update sha512.init m).1 = _
  rw [h1]
  unfold ShaState.finalize ShaState.update
  simp only
  rw [← absorb_append (Nat.le_refl _)]
  have h4 : m ++ shaPadding (absorb m.length shaInit m).2 m.length =
      m ++ [0x80] ++ List.replicate z 0 ++ natBytes 16 (8 * m.length) := by
    have : (239 - (absorb m.length shaInit m).2.length) % 128 = z := by
      simp only [List.length_append, List.length_replicate, List.length_singleton, natBytes_length] at hl
      omega
    unfold shaPadding
    rw [this]
    simp
  rw [h4, absorb_pieces hp]
  simp [shaText]

/-- Every message has a padding and pieces. -/
theorem C75_padded (m : Bytes) : ∃ padded p, Padded m padded ∧ Pieces padded p := by
  have hl : (m ++ [0x80] ++ List.replicate ((239 - m.length % 128) % 128) 0 ++ natBytes 16 (8 * m.length)).length % 128 = 0 := by
    simp only [List.length_append, List.length_replicate, List.length_singleton, natBytes_length]
    omega
  obtain ⟨p, hp⟩ := pieces_exist _ (show _ = 128 * (_ / 128) by rw [Nat.mul_comm]; exact (Nat.div_mul_cancel (Nat.dvd_of_mod_eq_zero hl)).symm)
  exact ⟨_, p, ⟨_, rfl, Nat.mod_lt _ (by decide), hl⟩, hp⟩

theorem C75_digest_length (m : Bytes) : (sha512.digest m).length = 64 := by
  show (ShaState.finalize _).length = 64
  simp [ShaState.finalize, natBytes_length]

example : beNat (sha512.digest (utf8 c!"abc")) =
    0xddaf35a193617abacc417349ae20413112e6fa4e89a97ea20a9eeee64b55d39a2192992a274fc1a836ba3c23a3feebbd454d4423643ce80e2a9ac94fa54ca49f := by
  decide +kernel

/-! ## What a nonce used twice says -/

theorem aesGcm_encrypt_ok {n k p a c t : Bytes} (h : aesGcm.encrypt n k p a = some (c, t)) :
    ¬(2 ^ 36 < p.length ∨ 2 ^ 36 < a.length) ∧ c = gctr (aesKeys k) (inc32 (gcmFirst (hashKey k) n)) p ∧
      t = gcmTag (aesKeys k) (hashKey k) (gcmFirst (hashKey k) n) a c := by
  simp only [aesGcm] at h
  split at h
  · cases h
  · rename_i hl
    cases h
    exact ⟨hl, rfl, rfl⟩

/-- **C75.** Two tags for one text under one key and one nonce are an equation for the hash key: everything in it but
the hash key is public. -/
theorem C75_reuse {n k p a a' c c' t t' : Bytes} (h : aesGcm.encrypt n k p a = some (c, t))
    (h' : aesGcm.encrypt n k p a' = some (c', t')) (hl : a.length = a'.length) :
    c' = c ∧ xorBytes t t' = natBytes 16
      (polynomial (blockDifference (blocks16 a) (blocks16 a') ++ List.replicate ((blocks16 c).length + 1) 0) (hashKey k)) := by
  obtain ⟨_, hc, ht⟩ := aesGcm_encrypt_ok h
  obtain ⟨_, hc', ht'⟩ := aesGcm_encrypt_ok h'
  have he : c' = c := hc'.trans hc.symm
  refine ⟨he, ?_⟩
  rw [ht, ht', he, gcmTag_xor _ _ _ hl rfl, blockDifference_self, List.append_assoc, ← List.replicate_succ']
  rfl

/-- **C75.** Who knows the hash key turns one accepted text into any other one of the same length, for any associated
data of the same length, and knows by how much the plaintext changes; the data key is not needed. -/
theorem C75_forged {n k p a a' c c' t : Bytes} (h : aesGcm.encrypt n k p a = some (c, t)) (ha : a.length = a'.length)
    (hc : c.length = c'.length) :
    aesGcm.decrypt n k c' a' (xorBytes t (natBytes 16 (polynomial
      (blockDifference (blocks16 a) (blocks16 a') ++ blockDifference (blocks16 c) (blocks16 c') ++ [0]) (hashKey k)))) =
    some (xorBytes p (xorBytes c c')) := by
  obtain ⟨hl, hce, ht⟩ := aesGcm_encrypt_ok h
  have hlen : c.length = p.length := (C75_cipher_length h).1
  have htag : xorBytes t (natBytes 16 (polynomial
      (blockDifference (blocks16 a) (blocks16 a') ++ blockDifference (blocks16 c) (blocks16 c') ++ [0]) (hashKey k))) =
      gcmTag (aesKeys k) (hashKey k) (gcmFirst (hashKey k) n) a' c' := by
    have e := gcmTag_xor (aesKeys k) (hashKey k) (gcmFirst (hashKey k) n) ha hc
    unfold polynomial
    rw [← e, ht]
    have := xorBytes_swap (gcmTag (aesKeys k) (hashKey k) (gcmFirst (hashKey k) n) a c)
      (gcmTag (aesKeys k) (hashKey k) (gcmFirst (hashKey k) n) a' c') (by simp [gcmTag, natBytes_length])
    exact this
  rw [htag]
  show (if _ then _ else _) = _
  rw [if_neg (by rw [← hc, ← ha, hlen]; omega)]
  refine (if_pos rfl).trans ?_
  congr 1
  show gctr (aesKeys k) (inc32 (gcmFirst (hashKey k) n)) c' = _
  have hp : p = gctr (aesKeys k) (inc32 (gcmFirst (hashKey k) n)) c := by rw [hce, gctr_gctr]
  rw [hp, gctr_eq, gctr_eq, ← hc]
  exact xorBytes_move hc (stream_enough _ _ _)

/-- **C75.** The same for an encrypted value: who knows the hash key and the value makes it any other value whose bytes
are as many, for any path as long, of any variant. -/
theorem C75_value_forged {fl : FloatOps} {nonce key : Bytes} {path path' : Str} {v w : Value} {e : EncValue}
    (h : Value.encrypt aesGcm nonce key path v = some e) (hp : (utf8 path).length = (utf8 path').length)
    (hw : w.asBytes.length = v.asBytes.length) (hf : Value.fromBytes fl w.asBytes w.variant = .ok w) :
    let data := xorBytes e.data (xorBytes v.asBytes w.asBytes)
    let difference := blockDifference (blocks16 (utf8 path)) (blocks16 (utf8 path')) ++
      blockDifference (blocks16 e.data) (blocks16 data) ++ [0]
    EncValue.decrypt aesGcm fl key path' { e with
      data, tag := xorBytes e.tag (natBytes 16 (polynomial difference (hashKey key))), variant := w.variant } = .ok w := by
  intro data difference
  unfold Value.encrypt at h
  split at h
  · rename_i d t he
    cases h
    have hl := (C75_cipher_length he).1
    have hlx : (xorBytes v.asBytes w.asBytes).length = v.asBytes.length := xorBytes_length (by omega)
    have hld : d.length = data.length := (xorBytes_length (by rw [hlx]; omega)).symm
    have := C75_forged he hp hld
    unfold EncValue.decrypt
    simp only
    rw [this]
    have e1 : xorBytes v.asBytes (xorBytes d data) = w.asBytes := by
      show xorBytes v.asBytes (xorBytes d (xorBytes d (xorBytes v.asBytes w.asBytes))) = _
      rw [xorBytes_swap d _ (by rw [hlx]; omega), xorBytes_swap _ _ hw.symm]
    simp only [e1, hf]
  · cases h

/-- **C75.** And without knowing the value: who knows the hash key moves an encrypted value to any path as long, where it
is read as the value that it was. -/
theorem C75_value_moved {fl : FloatOps} {nonce key : Bytes} {path path' : Str} {v : Value} {e : EncValue}
    (h : Value.encrypt aesGcm nonce key path v = some e) (hp : (utf8 path).length = (utf8 path').length)
    (hf : Value.fromBytes fl v.asBytes v.variant = .ok v) :
    EncValue.decrypt aesGcm fl key path' { e with
      tag := xorBytes e.tag (natBytes 16 (polynomial
        (blockDifference (blocks16 (utf8 path)) (blocks16 (utf8 path')) ++ List.replicate ((blocks16 e.data).length + 1) 0)
        (hashKey key))) } = .ok v := by
  unfold Value.encrypt at h
  split at h
  · rename_i d t he
    cases h
    have := C75_forged he hp (rfl : d.length = d.length)
    rw [blockDifference_self, List.append_assoc, ← List.replicate_succ'] at this
    unfold EncValue.decrypt
    simp only
    rw [this]
    have hl := (C75_cipher_length he).1
    have e1 : xorBytes v.asBytes (xorBytes d d) = v.asBytes := by
      rw [xorBytes_self, hl]
      exact xorBytes_zeros _
    simp only [e1, hf]
  · cases h

example : ∃ e, Value.encrypt aesGcm mockNonce mockKey c!"hello:" (.string c!"world!") = some e ∧
    EncValue.decrypt aesGcm f64Floats mockKey c!"other:" { e with
      tag := xorBytes e.tag (natBytes 16 (polynomial
        (blockDifference (blocks16 (utf8 c!"hello:")) (blocks16 (utf8 c!"other:")) ++ List.replicate ((blocks16 e.data).length + 1) 0)
        (hashKey mockKey))) } = .ok (.string c!"world!") := by
  have h : (Value.encrypt aesGcm mockNonce mockKey c!"hello:" (.string c!"world!")).isSome = true := by decide +kernel
  obtain ⟨e, he⟩ := Option.isSome_iff_exists.1 h
  exact ⟨e, he, C75_value_moved he (by decide) (by decide)⟩

/-- **C75.** So an edit that changes the map but not what is hashed (C13) publishes an equation for the hash key of the
file, whose coefficients are the two dates: MAC tags before and after, under one nonce. -/
theorem C75_edit_leaks {env : Env} (hC : env.C = aesGcm) (he : EnvLaws env) {F Fo : Format} {rep rep' : Value → Prop}
    (hFo : Format.Lawful Fo rep') {f : EncFile F} {key : Bytes} {m : RMap Value} {m' : RMap EncLeaf}
    (h : Holding env rep f key m m') (hm' : Holds rep' m) (g g1 : DecFile Fo) (p : SavedParameters)
    (hd : f.decryptAndSave Fo env = .ok (g, p)) (other : Fo.Map) (m1 : RMap Value)
    (ho : Fo.toInternal other = .ok m1) (c : Nat) (hs : g.setMap env other c = .ok g1)
    (hne : Fo.eq g.map other = false)
    (hmac : macInput env.rx f.metadata.partialEncryption (f.metadata.macOnlyEncrypted.getD false) m1 =
      macInput env.rx f.metadata.partialEncryption (f.metadata.macOnlyEncrypted.getD false) m)
    (i j : Nat) (f1 : EncFile F) (h1 : g1.encryptSaved F env p i = .ok (f1, j))
    (hl : f.metadata.lastModified.toBytes.length = f1.metadata.lastModified.toBytes.length) :
    f1.metadata.mac.data = f.metadata.mac.data ∧
    xorBytes f.metadata.mac.tag f1.metadata.mac.tag = natBytes 16 (polynomial
      (blockDifference (blocks16 f.metadata.lastModified.toBytes) (blocks16 f1.metadata.lastModified.toBytes) ++
        List.replicate ((blocks16 f.metadata.mac.data).length + 1) 0) (hashKey key)) := by
  obtain ⟨e1, _, mac, h2, h3⟩ := C13_edit_reuses_mac_nonce he hFo h hm' g g1 p hd other m1 ho c hs hne hmac i j f1 h1
  rw [hC] at h2 h3
  rw [← e1] at h3
  exact C75_reuse h2 h3 hl

/-- **C75.** With AES-256-GCM and SHA-512 only `age` and AWS KMS are left to be trusted. -/
theorem C75_env {env : Env} (hC : env.C = aesGcm) (hH : env.H = sha512) (age : AgeLaws env.A) (kms : KmsLaws env.K)
    (hn : ∀ i, (env.nonce i).length = 32) (hk : ∀ i, (env.newKey i).length = 32) : EnvLaws env where
  cipher := hC ▸ C75_cipher
  hasher := hH ▸ C75_hash
  age := age
  kms := kms
  nonce_length i := by rw [hn, hC]; rfl
  key_length := hk

/-- The world of the examples with AES-256-GCM, SHA-512 and floats. -/
def gcmEnv : Env := { Toy.env with C := aesGcm, H := sha512, fl := f64Floats, nonce := fun i => natBytes 32 i }

theorem gcmEnv_laws : EnvLaws gcmEnv :=
  C75_env rfl rfl Toy.env_laws.age Toy.env_laws.kms (fun i => natBytes_length 32 i) (fun i => Toy.env_laws.key_length i)

/-- **C75.** Such edits exist: two versions of a file, and the equation that follows. -/
theorem C75_leaked :
    ∃ (f f1 : EncFile Format.json) (g g1 : DecFile Format.json) (p : SavedParameters) (j j1 : Nat),
    Toy.builder.encrypt gcmEnv 0 = .ok (f, j) ∧ f.decryptAndSave Format.json gcmEnv = .ok (g, p) ∧
    g.setMap gcmEnv editedDoc 50 = .ok g1 ∧ g1.encryptSaved Format.json gcmEnv p j = .ok (f1, j1) ∧
    f1.metadata.lastModified ≠ f.metadata.lastModified ∧ f1.metadata.mac.data = f.metadata.mac.data ∧
    xorBytes f.metadata.mac.tag f1.metadata.mac.tag = natBytes 16 (polynomial
      (blockDifference (blocks16 f.metadata.lastModified.toBytes) (blocks16 f1.metadata.lastModified.toBytes) ++
        List.replicate 9 0) (hashKey (gcmEnv.newKey 0))) := by
  have hc : (match Toy.builder.encrypt gcmEnv 0 with
    | .error _ => false
    | .ok (f, j) => match f.decryptAndSave Format.json gcmEnv with
      | .error _ => false
      | .ok (g, p) => match g.setMap gcmEnv editedDoc 50 with
        | .error _ => false
        | .ok g1 => match g1.encryptSaved Format.json gcmEnv p j with
          | .error _ => false
          | .ok (f1, _) => decide (f1.metadata.lastModified ≠ f.metadata.lastModified ∧
              f1.metadata.mac.data = f.metadata.mac.data ∧
              xorBytes f.metadata.mac.tag f1.metadata.mac.tag = natBytes 16 (polynomial
                (blockDifference (blocks16 f.metadata.lastModified.toBytes) (blocks16 f1.metadata.lastModified.toBytes) ++
                  List.replicate 9 0) (hashKey (gcmEnv.newKey 0))))) = true := by decide +kernel
  split at hc
  · cases hc
  rename_i f j h1
  split at hc
  · cases hc
  rename_i g p h2
  split at hc
  · cases hc
  rename_i g1 h3
  split at hc
  · cases hc
  rename_i f1 j1 h4
  exact ⟨f, f1, g, g1, p, j, j1, h1, h2, h3, h4, of_decide_eq_true hc⟩

end Rops.Props
