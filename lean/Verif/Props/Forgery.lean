import Verif.Props.Gcm
import Verif.Lemmas.Hashing
/-!
# C77: how hard it is to forge

The tag of AES-256-GCM hides a polynomial over the field with 2^128 elements at a secret point, the hash key. A changed
text is accepted only if the hash key is a root of a polynomial, which has few; and a nonce used twice leaves few hash
keys.
-/

namespace Rops.Props
open Rops Rops.Spec

/-- **C77.** The blocks are a field: `^^^` adds, `mult` multiplies, 0 and `2 ^ 127` are zero and one. -/
theorem C77_field {x y z : Nat} (hx : x < 2 ^ 128) (hy : y < 2 ^ 128) (hz : z < 2 ^ 128) :
    x ^^^ y < 2 ^ 128 ∧ mult x y < 2 ^ 128 ∧ mult x y = mult y x ∧ mult (mult x y) z = mult x (mult y z) ∧
    mult x (y ^^^ z) = mult x y ^^^ mult x z ∧ mult x (2 ^ 127) = x ∧ (x ≠ 0 → ∃ w < 2 ^ 128, mult w x = 2 ^ 127) :=
  ⟨Nat.xor_lt_two_pow hx hy, mult_lt hy, mult_comm hx hy, mult_assoc hx hy hz, mult_right x y z, mult_one hx, inverse hx⟩

/-- The product that the specification of GCM was tested with (test case 2 of McGrew and Viega). -/
example : mult 0x0388dace60b6a392f328c2b971b2fe78 0x66e94bd4ef8a2c3b884cfa59ca342b2e = 0x5e2ec746917062882c85b0685353deb7 := by
  decide +kernel

/-- **C77.** A hash takes a value for no more keys than it has blocks, unless all of them are zero. -/
theorem C77_values {cs : List Nat} (hc : ∀ c ∈ cs, c < 2 ^ 128) (h0 : ∃ c ∈ cs, c ≠ 0) (d : Bytes) :
    AtMost cs.length (Explains cs d) := by
  intro l hl hx
  cases l with
  | nil => exact Nat.zero_le _
  | cons r rs =>
    obtain ⟨h1, h2⟩ := hx r (by simp)
    refine ghash_values hc h0 (ghash_lt h1 cs) (r :: rs) hl (fun x hm => ?_)
    obtain ⟨h3, h4⟩ := hx x hm
    refine ⟨h3, natBytes_inj 16 (ghash_lt h3 cs) (ghash_lt h1 cs) ?_⟩
    exact h4.trans h2.symm

/-- Two keys explain the difference here: two is also the most. -/
example : ∃ h h', h ≠ h' ∧ Explains [1, 1] (natBytes 16 0) h ∧ Explains [1, 1] (natBytes 16 0) h' :=
  ⟨0, 2 ^ 127, by decide, by unfold Explains; decide +kernel, by unfold Explains; decide +kernel⟩

/-- **C77.** Two different texts are accepted with two tags for no more hash keys than there are blocks. -/
theorem C77_convinced {a c a' c' : Bytes} (ha : a.length < 2 ^ 61) (hc : c.length < 2 ^ 61) (ha' : a'.length < 2 ^ 61)
    (hc' : c'.length < 2 ^ 61) (hne : (a', c') ≠ (a, c)) (t t' : Bytes) :
    AtMost (max (tagged a c).length (tagged a' c').length) (Convinced a c t a' c' t') := by
  intro l hl hx
  cases l with
  | nil => exact Nat.zero_le _
  | cons r rs =>
    obtain ⟨h1, h2⟩ := hx r (by simp)
    have hlt : ∀ h < 2 ^ 128, ghash h (tagged a c) ^^^ ghash h (tagged a' c') < 2 ^ 128 := fun h hh =>
      Nat.xor_lt_two_pow (ghash_lt hh _) (ghash_lt hh _)
    refine ghash_difference (tagged_lt ha hc) (tagged_lt ha' hc') (fun he => ?_) (hlt r h1) (r :: rs) hl (fun x hm => ?_)
    · obtain ⟨e1, e2⟩ := tagged_inj hc hc' he
      exact hne (by rw [e1, e2])
    · obtain ⟨h3, h4⟩ := hx x hm
      exact ⟨h3, natBytes_inj 16 (hlt x h3) (hlt r h1) (h4.trans h2.symm)⟩

theorem gcmTag_tagged (keys : List Columns) (h first : Nat) (a c : Bytes) :
    gcmTag keys h first a c = natBytes 16 (polynomial (tagged a c) h ^^^ aesBlock keys first) := rfl

/-- **C77.** If a changed text is accepted under the nonce of another one, the hash key is one of few that the change
determines. -/
theorem C77_accepted {n k p a c t p' a' c' t' : Bytes} (h : aesGcm.encrypt n k p a = some (c, t))
    (h' : aesGcm.decrypt n k c' a' t' = some p') (hne : (a', c') ≠ (a, c)) :
    Convinced a c t a' c' t' (hashKey k) ∧
    AtMost (max (tagged a c).length (tagged a' c').length) (Convinced a c t a' c' t') := by
  obtain ⟨hl, hce, ht⟩ := aesGcm_encrypt_ok h
  have hlen : c.length = p.length := (C75_cipher_length h).1
  simp only [aesGcm] at h'
  split at h'
  · cases h'
  rename_i hl'
  split at h'
  · rename_i ht'
    refine ⟨⟨aesBlock_lt k 0, ?_⟩, C77_convinced (by omega) (by omega) (by omega) (by omega) hne t t'⟩
    have hk : hashKey k = aesBlock (aesKeys k) 0 := rfl
    rw [← ht', ht, ← hk, gcmTag_tagged, gcmTag_tagged, xor_natBytes]
    congr 1
    generalize polynomial (tagged a c) (hashKey k) = x
    generalize polynomial (tagged a' c') (hashKey k) = y
    generalize aesBlock (aesKeys k) (gcmFirst (hashKey k) n) = z
    have : x ^^^ z ^^^ (y ^^^ z) = x ^^^ y ^^^ (z ^^^ z) := by ac_rfl
    rw [this, Nat.xor_self, Nat.xor_zero]
  · cases h'

/-- **C77.** And nothing is accepted with another tag. -/
theorem C77_other_tag {n k p a c t p' t' : Bytes} (h : aesGcm.encrypt n k p a = some (c, t))
    (h' : aesGcm.decrypt n k c a t' = some p') : t' = t ∧ p' = p := by
  have h1 := C75_cipher.decrypt_encrypt h
  simp only [aesGcm] at h' h1
  split at h'
  · cases h'
  rename_i hl
  rw [if_neg hl] at h1
  split at h'
  · rename_i e'
    split at h1
    · rename_i e
      exact ⟨e'.symm.trans e, (Option.some.inj h').symm.trans (Option.some.inj h1)⟩
    · cases h1
  · cases h'

/-- **C77.** The same for encrypted values: whoever changes one, or moves it to another path, and keeps its nonce, has
named few hash keys of which the file has one. -/
theorem C77_value_accepted {fl : FloatOps} {key : Bytes} {path path' : Str} {v w : Value} {e e' : EncValue} {nonce : Bytes}
    (h : Value.encrypt aesGcm nonce key path v = some e) (hn : e'.nonce = e.nonce)
    (h' : EncValue.decrypt aesGcm fl key path' e' = .ok w) (hne : (path', e'.data) ≠ (path, e.data)) :
    Convinced (utf8 path) e.data e.tag (utf8 path') e'.data e'.tag (hashKey key) ∧
    AtMost (max (tagged (utf8 path) e.data).length (tagged (utf8 path') e'.data).length)
      (Convinced (utf8 path) e.data e.tag (utf8 path') e'.data e'.tag) := by
  unfold Value.encrypt at h
  split at h
  · rename_i d t he
    cases h
    unfold EncValue.decrypt at h'
    split at h'
    · cases h'
    · rename_i p hp
      rw [hn] at hp
      refine C77_accepted he hp (fun e => hne ?_)
      obtain ⟨e1, e2⟩ := Prod.mk.inj e
      rw [utf8_injective e1, e2]
  · cases h

theorem moved_exists {fl : FloatOps} {nonce key : Bytes} {path path' : Str} {v : Value} {e : EncValue}
    (h : Value.encrypt aesGcm nonce key path v = some e) (hp : (utf8 path).length = (utf8 path').length)
    (hf : Value.fromBytes fl v.asBytes v.variant = .ok v) :
    ∃ e' : EncValue, e'.nonce = e.nonce ∧ e'.data = e.data ∧ EncValue.decrypt aesGcm fl key path' e' = .ok v := by
  have h2 := C75_value_moved h hp hf
  generalize xorBytes e.tag _ = t at h2
  exact ⟨{ e with tag := t }, rfl, rfl, h2⟩

/-- An encrypted value that was moved, as C75 shows: three blocks, three hash keys at most. -/
example : ∃ e e' : EncValue, Value.encrypt aesGcm mockNonce mockKey c!"hello:" (.string c!"world!") = some e ∧ e'.nonce = e.nonce ∧
    EncValue.decrypt aesGcm f64Floats mockKey c!"other:" e' = .ok (.string c!"world!") ∧
    AtMost 3 (Convinced (utf8 c!"hello:") e.data e.tag (utf8 c!"other:") e'.data e'.tag) := by
  have h : (match Value.encrypt aesGcm mockNonce mockKey c!"hello:" (.string c!"world!") with
      | some e => decide ((tagged (utf8 c!"hello:") e.data).length = 3 ∧ (tagged (utf8 c!"other:") e.data).length = 3)
      | none => false) = true := by decide +kernel
  split at h
  · rename_i e he
    obtain ⟨h1, h2⟩ := of_decide_eq_true h
    obtain ⟨e', hn, hdata, hd⟩ := moved_exists (fl := f64Floats) (path' := c!"other:") he (by decide) (by decide)
    refine ⟨e, e', he, hn, hd, ?_⟩
    have := (C77_value_accepted he hn hd (fun h => absurd (Prod.mk.inj h).1 (by decide))).2
    rw [hdata, h1, h2] at this
    rw [hdata]
    exact this
  · cases h

theorem hex_length (b : Bytes) : (utf8 (hex b)).length = 2 * b.length := by
  have hd : ∀ n : Fin 16, (utf8 [c!"0123456789ABCDEF".getD n '?']).length = 1 := by decide
  induction b with
  | nil => rfl
  | cons x r ih =>
    have hx : x.toNat < 256 := x.toNat_lt
    have h1 := hd ⟨x.toNat / 16, by omega⟩
    have h2 := hd ⟨x.toNat % 16, by omega⟩
    have : hex (x :: r) = [c!"0123456789ABCDEF".getD (x.toNat / 16) '?'] ++ [c!"0123456789ABCDEF".getD (x.toNat % 16) '?'] ++ hex r := rfl
    simp only at h1 h2
    rw [this, utf8_append, utf8_append, List.length_append, List.length_append, h1, h2, ih, List.length_cons]
    omega

theorem blocks16_count {b : Bytes} : (blocks16 b).length = (b.length + 15) / 16 := by
  have h : ∀ n (b : Bytes), b.length ≤ n → (gcmBlocks n b).length = (b.length + 15) / 16 := by
    intro n
    induction n with
    | zero => intro b hb; rw [gcmBlocks, List.length_eq_zero_iff.1 (by omega : b.length = 0)]; rfl
    | succ n ih =>
      intro b hb
      cases b with
      | nil => rfl
      | cons x b =>
        simp only [gcmBlocks, List.length_cons]
        rw [ih _ (by simp only [List.length_drop, List.length_cons] at hb ⊢; omega)]
        simp only [List.length_drop, List.length_cons]
        omega
  exact h _ b (Nat.le_refl _)

/-- **C77.** What an edit that changes the map but not what is hashed (C13, C75) gives away: of the 2^128 hash keys no
more than eleven are left, and everything that decides between them is in the two versions of the file. -/
theorem C77_edit_candidates {env : Env} (hC : env.C = aesGcm) (hH : env.H = sha512) (he : EnvLaws env) {F Fo : Format}
    {rep rep' : Value → Prop} (hFo : Format.Lawful Fo rep') {f : EncFile F} {key : Bytes} {m : RMap Value} {m' : RMap EncLeaf}
    (h : Holding env rep f key m m') (hm' : Holds rep' m) (g g1 : DecFile Fo) (p : SavedParameters)
    (hd : f.decryptAndSave Fo env = .ok (g, p)) (other : Fo.Map) (m1 : RMap Value)
    (ho : Fo.toInternal other = .ok m1) (c : Nat) (hs : g.setMap env other c = .ok g1)
    (hne : Fo.eq g.map other = false)
    (hmac : macInput env.rx f.metadata.partialEncryption (f.metadata.macOnlyEncrypted.getD false) m1 =
      macInput env.rx f.metadata.partialEncryption (f.metadata.macOnlyEncrypted.getD false) m)
    (i j : Nat) (f1 : EncFile F) (h1 : g1.encryptSaved F env p i = .ok (f1, j))
    (hl : f.metadata.lastModified.toBytes.length = 20) (hl1 : f1.metadata.lastModified.toBytes.length = 20)
    (hdate : f1.metadata.lastModified.toBytes ≠ f.metadata.lastModified.toBytes) :
    let known := blockDifference (blocks16 f.metadata.lastModified.toBytes) (blocks16 f1.metadata.lastModified.toBytes) ++
      List.replicate 9 0
    Explains known (xorBytes f.metadata.mac.tag f1.metadata.mac.tag) (hashKey key) ∧
    AtMost 11 (Explains known (xorBytes f.metadata.mac.tag f1.metadata.mac.tag)) := by
  intro known
  have hdata : f.metadata.mac.data.length = 128 := by
    have hm := h.mac
    rw [hC, hH] at hm
    rw [(C75_cipher_length hm).1]
    unfold macText
    rw [hex_length, C75_digest_length]
  have hb : (blocks16 f.metadata.mac.data).length = 8 := by rw [blocks16_count, hdata]
  obtain ⟨_, h2⟩ := C75_edit_leaks hC he hFo h hm' g g1 p hd other m1 ho c hs hne hmac i j f1 h1 (hl.trans hl1.symm)
  rw [hb] at h2
  refine ⟨⟨aesBlock_lt key 0, h2.symm⟩, ?_⟩
  have hlen : (blocks16 f.metadata.lastModified.toBytes).length = (blocks16 f1.metadata.lastModified.toBytes).length :=
    blocks16_length (hl.trans hl1.symm)
  have hp : known.length = 11 := by
    show (blockDifference _ _ ++ _).length = 11
    unfold blockDifference
    rw [List.length_append, List.length_zipWith, List.length_replicate, ← hlen, Nat.min_self, blocks16_count, hl]
  have := C77_values (cs := known) (fun x hx => ?_) ?_ (xorBytes f.metadata.mac.tag f1.metadata.mac.tag)
  · rwa [hp] at this
  · rcases List.mem_append.1 hx with hx | hx
    · exact blockDifference_lt (gcmBlocks_lt _ _) (gcmBlocks_lt _ _) x hx
    · rw [List.eq_of_mem_replicate hx]; decide
  · obtain ⟨x, hx, hne⟩ := blockDifference_ne hlen (fun e => hdate (blocks16_inj (hl1.trans hl.symm) e.symm))
    exact ⟨x, List.mem_append_left _ hx, hne⟩

theorem docMap_fits_gcm : Fits gcmEnv.fl jsonRep (some (.unencryptedSuffix c!"_plain")) Toy.docMap := by
  refine ⟨?_, Toy.docMap_fits.holds, Toy.docMap_fits.3⟩
  have hl : leaves Toy.docMap = [([c!"user"], Value.string c!"root"), ([c!"db", c!"port_plain"], .integer 5432),
      ([c!"db", c!"pw"], .string c!"x"), ([c!"l"], .boolean true), ([c!"l"], .float c!"1.5"),
      ([c!"l", c!"a_plain"], .integer (-1))] := rfl
  unfold Canonical
  rw [hl]
  intro pv h
  simp only [List.mem_cons, List.not_mem_nil, or_false] at h
  rcases h with rfl | rfl | rfl | rfl | rfl | rfl
  · trivial
  · trivial
  · trivial
  · trivial
  · show f64Floats.Canonical _; unfold FloatOps.Canonical; decide +kernel
  · trivial

/-- **C77.** Such edits exist: two versions of a file, and no more than eleven hash keys that explain them. -/
theorem C77_leaked :
    ∃ (f f1 : EncFile Format.json) (g g1 : DecFile Format.json) (p : SavedParameters) (j j1 : Nat),
    Toy.builder.encrypt gcmEnv 0 = .ok (f, j) ∧ f.decryptAndSave Format.json gcmEnv = .ok (g, p) ∧
    g.setMap gcmEnv editedDoc 50 = .ok g1 ∧ g1.encryptSaved Format.json gcmEnv p j = .ok (f1, j1) ∧
    AtMost 11 (Explains (blockDifference (blocks16 f.metadata.lastModified.toBytes) (blocks16 f1.metadata.lastModified.toBytes) ++
      List.replicate 9 0) (xorBytes f.metadata.mac.tag f1.metadata.mac.tag)) := by
  have hc : (match Toy.builder.encrypt gcmEnv 0 with
    | .error _ => false
    | .ok (f, j) => match f.decryptAndSave Format.json gcmEnv with
      | .error _ => false
      | .ok (g, p) => match g.setMap gcmEnv editedDoc 50 with
        | .error _ => false
        | .ok g1 => match g1.encryptSaved Format.json gcmEnv p j with
          | .error _ => false
          | .ok (f1, _) => decide (Format.json.eq g.map editedDoc = false ∧ f.metadata.lastModified.toBytes.length = 20 ∧
              f1.metadata.lastModified.toBytes.length = 20 ∧ f1.metadata.lastModified.toBytes ≠ f.metadata.lastModified.toBytes)) = true := by
    decide +kernel
  split at hc
  · cases hc
  rename_i f j h1
  split at hc
  · cases hc
  rename_i g p h2
  split at hc
  · cases hc
  rename_i g1 h3
  split at hc
  · cases hc
  rename_i f1 j1 h4
  obtain ⟨hne, hl, hl1, hdate⟩ := of_decide_eq_true hc
  obtain ⟨m', _, _, hh, _⟩ := holding_of_builder gcmEnv_laws Format.json_lawful Toy.doc_read docMap_fits_gcm h1
  have hp : f.metadata.partialEncryption = some (.unencryptedSuffix c!"_plain") := by
    obtain ⟨_, _, _, _, _, _, _, _, _, _, h6⟩ := Builder.encrypt_ok h1
    rw [h6]; rfl
  have ho : f.metadata.macOnlyEncrypted = Toy.builder.macOnlyEncrypted := by
    obtain ⟨_, _, _, _, _, _, _, _, _, _, h6⟩ := Builder.encrypt_ok h1
    rw [h6]
  refine ⟨f, f1, g, g1, p, j, j1, h1, h2, h3, h4, ?_⟩
  exact (C77_edit_candidates rfl rfl gcmEnv_laws Format.json_lawful hh Toy.docMap_fits.holds g g1 p h2 editedDoc _ rfl 50 h3 hne
    (by rw [hp, ho]; decide +kernel) j j1 f1 h4 hl hl1 hdate).2

end Rops.Props
