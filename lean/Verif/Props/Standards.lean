import Verif.Lemmas.Aes
import Verif.Lemmas.Sha
import Verif.Lemmas.Ghash
import Verif.Props.Gcm
import Verif.Props.Forgery
/-!
# AES-256-GCM and SHA-512 are those of their standards

C80. The model of `aes-gcm` and `sha2` against specifications written from FIPS 197, SP 800-38D and FIPS 180-4.
-/

namespace Rops.Props
open Rops Spec

/-- **C80.** What the S-box calls the inverse is one. -/
theorem C80_inverse : byteInverse 0 = 0 ∧ ∀ x < 256, x ≠ 0 → byteInverse x < 256 ∧ byteMul x (byteInverse x) = 1 := by
  decide +kernel

/-- The first `n` words of the key schedule of a key. -/
def expandTo (key : Bytes) : Nat → Nat → Nat → Nat
  | 0 => fun i r => (key.getD (4 * i + r) 0).toNat
  | n + 1 => fun i r => if i = n ∧ 8 ≤ n then expandTo key n (n - 8) r ^^^ keyTemp (expandTo key n) n r else expandTo key n i r

theorem expandTo_stable (key : Bytes) (n i r : Nat) (h : i < n) : ∀ k, expandTo key (n + k) i r = expandTo key n i r
  | 0 => rfl
  | k + 1 => by
    show (if i = n + k ∧ 8 ≤ n + k then _ else expandTo key (n + k) i r) = _
    rw [if_neg (by omega), expandTo_stable key n i r h k]

theorem expandTo_last (key : Bytes) {i : Nat} (h : 8 ≤ i) (r : Nat) :
    expandTo key (i + 1) i r = expandTo key i (i - 8) r ^^^ keyTemp (expandTo key i) i r :=
  if_pos ⟨rfl, h⟩

theorem expandTo_start (key : Bytes) {i : Nat} (h : i < 8) (r n : Nat) : expandTo key n i r = (key.getD (4 * i + r) 0).toNat := by
  induction n with
  | zero => rfl
  | succ n ih =>
    show (if i = n ∧ 8 ≤ n then _ else expandTo key n i r) = _
    rw [if_neg (by omega), ih]

theorem expandTo_below (key : Bytes) {N i : Nat} (hi : i ≤ N) {j : Nat} (h : j < i) (r : Nat) : expandTo key N j r = expandTo key i j r := by
  obtain ⟨k, rfl⟩ := Nat.exists_eq_add_of_le hi
  exact expandTo_stable key i j r h k

theorem expandTo_next (key : Bytes) {N i : Nat} (h8 : 8 ≤ i) (hi : i < N) (r : Nat) :
    expandTo key N i r = expandTo key N (i - 8) r ^^^ keyTemp (expandTo key N) i r := by
  rw [expandTo_below key (show i + 1 ≤ N by omega) (by omega), expandTo_last key h8, expandTo_below key (Nat.le_of_lt hi) (by omega)]
  simp only [keyTemp, expandTo_below key (Nat.le_of_lt hi) (show i - 1 < i by omega)]

/-- **C80.** Every key has one key schedule. -/
theorem C80_expansion (key : Bytes) : ∃ w, KeyExpansion key w ∧
    ∀ w', KeyExpansion key w' → ∀ i < 60, ∀ r < 4, w' i r = w i r := by
  obtain ⟨w, hw⟩ : ∃ w, KeyExpansion key w :=
    ⟨expandTo key 60, fun i hi r _ => expandTo_start key hi r 60, fun i h8 hi r _ => expandTo_next key h8 hi r⟩
  refine ⟨_, hw, fun w' hw' i => ?_⟩
  induction i using Nat.strongRecOn with
  | _ i ih =>
    intro hi r hr
    by_cases h8 : i < 8
    · rw [hw'.start i h8 r hr, hw.start i h8 r hr]
    · have e : keyTemp w' i r = keyTemp w i r := by
        simp only [keyTemp, ih (i - 1) (by omega) (by omega) r hr, ih (i - 1) (by omega) (by omega) _ (Nat.mod_lt (r + 1) (by decide : 4 > 0))]
      rw [hw'.next i (by omega) hi r hr, hw.next i (by omega) hi r hr, ih (i - 8) (by omega) (by omega) r hr, e]

/-- **C80.** The block cipher is AES-256. -/
theorem C80_block {key b c : Bytes} (hk : key.length = 32) (hb : b.length = 16) :
    AesEncrypts key b c ↔ c = natBytes 16 (aesBlock (aesKeys key) (beNat b)) := by
  have hbytes {w : Nat → Nat → Nat} (hw : KeyExpansion key w) (r k : Nat) (hr : r < 4) (hk' : k < 4) :
      ((natBytes 16 (aesBlock (aesKeys key) (beNat b))).getD (r + 4 * k) 0).toNat = aesCipher w (blockState b) r k := by
    have ho := (aesRounds_eq hw (s := blockState b) fun r _ c _ => UInt8.toNat_lt _).2
    rw [aesBlock_eq hw hk hb, stateBytes, List.getD_eq_getElem?_getD, List.getElem?_map, List.getElem?_range (by omega)]
    show (UInt8.ofNat (aesCipher w (blockState b) ((r + 4 * k) % 4) ((r + 4 * k) / 4))).toNat = _
    rw [show (r + 4 * k) % 4 = r by omega, show (r + 4 * k) / 4 = k by omega]
    exact UInt8.toNat_ofNat_of_lt' (ho r hr k hk')
  constructor
  · rintro ⟨hl, w, hw, h⟩
    refine List.ext_getElem (by rw [hl, natBytes_length]) fun i h1 h2 => ?_
    have e := (h (i % 4) (by omega) (i / 4) (by omega)).trans (hbytes hw (i % 4) (i / 4) (by omega) (by omega)).symm
    rw [show i % 4 + 4 * (i / 4) = i by omega] at e
    have e := UInt8.toNat_inj.1 e
    simpa [List.getD_eq_getElem?_getD, List.getElem?_eq_getElem h1, List.getElem?_eq_getElem h2] using e
  · rintro rfl
    obtain ⟨w, hw, _⟩ := C80_expansion key
    exact ⟨natBytes_length _ _, w, hw, fun r hr k hk' => hbytes hw r k hr hk'⟩

/-- The example of FIPS 197, appendix C.3. -/
example : AesEncrypts ((List.range 32).map UInt8.ofNat) ((List.range 16).map fun i => UInt8.ofNat (17 * i))
    [0x8e, 0xa2, 0xb7, 0xca, 0x51, 0x67, 0x45, 0xbf, 0xea, 0xfc, 0x49, 0x90, 0x4b, 0x49, 0x60, 0x89] :=
  (C80_block (by decide) (by decide)).2 (by decide +kernel)

/-! ## SHA-512 -/

theorem pieces_iff {l : Bytes} {p : List Bytes} : Pieces l p ↔ (∀ b ∈ p, b.length = 128) ∧ p.flatten = l := by
  constructor
  · intro h
    induction h with
    | nil => exact ⟨fun _ h => (nomatch h), rfl⟩
    | cons hb _ ih =>
      refine ⟨fun b h => ?_, by rw [List.flatten_cons, ih.2]⟩
      rcases List.mem_cons.1 h with rfl | h
      · exact hb
      · exact ih.1 b h
  · rintro ⟨h, rfl⟩
    induction p with
    | nil => exact .nil
    | cons b p ih => exact .cons (h b (.head _)) (ih fun b h' => h b (.tail _ h'))

theorem shaPadded_iff {m : Bytes} (hm : 8 * m.length < 2 ^ 128) {p : List Bytes} :
    ShaPadded m p ↔ ∃ padded, Padded m padded ∧ Pieces padded p := by
  have hn : (natBytes 16 (8 * m.length)).foldl (fun n x => n * 256 + x.toNat) 0 = 8 * m.length := beNat_natBytes (n := 16) (by rw [show 256 ^ 16 = 2 ^ 128 by decide]; exact hm)
  constructor
  · rintro ⟨hb, z, l, hz, hl, hlen, he⟩
    have : l = natBytes 16 (8 * m.length) := beNat_inj (by rw [hl, natBytes_length]) (hlen.trans hn.symm)
    rw [this] at he
    refine ⟨_, ⟨z, he, hz, ?_⟩, pieces_iff.2 ⟨hb, rfl⟩⟩
    have (p : List Bytes) (hb : ∀ b ∈ p, b.length = 128) : p.flatten.length % 128 = 0 := by
      clear he
      induction p with
      | nil => rfl
      | cons b p ih =>
        have := ih fun b h => hb b (.tail _ h)
        rw [List.flatten_cons, List.length_append, hb b (.head _)]
        omega
    exact this p hb
  · rintro ⟨padded, ⟨z, rfl, hz, _⟩, hp⟩
    obtain ⟨hb, he⟩ := pieces_iff.1 hp
    exact ⟨hb, z, _, hz, natBytes_length _ _, hn, he⟩

/-- **C80.** The hash is SHA-512. -/
theorem C80_digest {m d : Bytes} (hm : 8 * m.length < 2 ^ 128) : Sha512Digest m d ↔ d = sha512.digest m := by
  constructor
  · rintro ⟨hd, K, H, H', blocks, hK, hH, hp, hs, hw⟩
    obtain ⟨padded, h1, h2⟩ := (shaPadded_iff hm).1 hp
    rw [C75_digest h1 h2, ← wordsOf_initial hH, steps_eq hK hp.1 hs]
    exact (shaText_words H' hd).1 hw
  · rintro rfl
    obtain ⟨padded, p, h1, h2⟩ := C75_padded m
    obtain ⟨H', hs⟩ := steps_exist modelConstant modelInitial p
    have hp := (shaPadded_iff hm).2 ⟨_, h1, h2⟩
    refine ⟨C75_digest_length m, modelConstant, modelInitial, H', p, modelConstants, modelInitials, hp, hs, ?_⟩
    refine (shaText_words H' (C75_digest_length m)).2 ?_
    rw [C75_digest h1 h2, ← steps_eq modelConstants hp.1 hs, wordsOf_initial modelInitials]

example : Sha512Digest (utf8 c!"abc") (natBytes 64
    0xddaf35a193617abacc417349ae20413112e6fa4e89a97ea20a9eeee64b55d39a2192992a274fc1a836ba3c23a3feebbd454d4423643ce80e2a9ac94fa54ca49f) :=
  (C80_digest (by decide)).2 (by decide +kernel)

/-! ## Galois/Counter Mode -/

theorem streamed_iff {key j p c : Bytes} (hk : key.length = 32) (hj : j.length = 16) :
    Streamed key j p c ↔ c = gctr (aesKeys key) (inc32 (beNat j)) p := by
  have hs := stream_enough (aesKeys key) (inc32 (beNat j)) p.length
  have key' (i : Nat) (hi : i < p.length) : (gctr (aesKeys key) (inc32 (beNat j)) p).getD i 0 =
      p.getD i 0 ^^^ (natBytes 16 (aesBlock (aesKeys key) (counterNat (beNat j) (i / 16 + 1)))).getD (i % 16) 0 := by
    rw [gctr, zipWith_getD hi (by omega), stream_get _ _ _ _ (by omega), counterNat_inc]
  have hcount (m : Nat) : beNat (natBytes 16 (counterNat (beNat j) m)) = counterNat (beNat j) m :=
    beNat_natBytes (by rw [show 256 ^ 16 = 2 ^ 128 by decide]; exact counterNat_lt (beNat_block_lt hj) m)
  constructor
  · rintro ⟨hl, h⟩
    refine ext_getD (by rw [hl, gctr_length]) fun i hi => ?_
    obtain ⟨b, k, hb, he, e⟩ := h i (by omega)
    have hb := (counter_iff hj).1 hb
    subst hb
    rw [e, key' i (by omega), (C80_block hk (natBytes_length _ _)).1 he, hcount]
  · rintro rfl
    refine ⟨gctr_length _ _ _, fun i hi => ⟨_, _, (counter_iff hj).2 rfl, (C80_block hk (natBytes_length _ _)).2 rfl, ?_⟩⟩
    rw [key' i hi, hcount]

theorem tagged_iff {key h j a c t : Bytes} (hk : key.length = 32) (hh : h.length = 16) (hj : j.length = 16)
    (ha : 8 * a.length < 2 ^ 64) (hc : 8 * c.length < 2 ^ 64) :
    Tagged key h j a c t ↔ t = gcmTag (aesKeys key) (beNat h) (beNat j) a c := by
  have key' {as cs : List Bytes} {l s e : Bytes} (has : Chunks a as) (hcs : Chunks c cs) (hl : LengthBlock a.length c.length l)
      (hg : Ghash h (as ++ cs ++ [l]) s) (he : AesEncrypts key j e) :
      xorBytes s e = gcmTag (aesKeys key) (beNat h) (beNat j) a c ∧ s.length = 16 ∧ e.length = 16 := by
    obtain ⟨l1, l2⟩ := (lengthBlock_iff hc).1 hl
    have hs := (ghash_iff hh (by
      intro b hb
      rcases List.mem_append.1 hb with hb | hb
      · rcases List.mem_append.1 hb with hb | hb
        · exact has.1 b hb
        · exact hcs.1 b hb
      · rw [List.mem_singleton.1 hb]; exact l1)).1 hg
    have he' := (C80_block hk hj).1 he
    refine ⟨?_, hg.1, he.length⟩
    rw [hs, he', xor_natBytes, List.map_append, List.map_append, chunks_map has, chunks_map hcs, List.map_singleton, l2]
    rfl
  constructor
  · rintro ⟨as, cs, l, s, e, has, hcs, hl, hg, he, ht, h⟩
    obtain ⟨h1, h2, h3⟩ := key' has hcs hl hg he
    rw [← h1]
    refine ext_getD (by rw [ht, xorBytes_length (by omega), h2]) fun i hi => ?_
    rw [h i (by omega), xorBytes, zipWith_getD (by omega) (by omega)]
  · rintro rfl
    obtain ⟨as, has, _⟩ := chunks_exist a.length a (Nat.le_refl _)
    obtain ⟨cs, hcs, _⟩ := chunks_exist c.length c (Nat.le_refl _)
    obtain ⟨l, hl⟩ := lengths_exist ha hc
    have hg : Ghash h (as ++ cs ++ [l]) (natBytes 16 (ghash (beNat h) ((as ++ cs ++ [l]).map beNat))) :=
      (ghash_iff hh (by
        intro b hb
        rcases List.mem_append.1 hb with hb | hb
        · rcases List.mem_append.1 hb with hb | hb
          · exact has.1 b hb
          · exact hcs.1 b hb
        · rw [List.mem_singleton.1 hb]; exact hl.1)).2 rfl
    have he := (C80_block hk hj).2 rfl
    obtain ⟨h1, h2, h3⟩ := key' has hcs hl hg he
    refine ⟨as, cs, l, _, _, has, hcs, hl, hg, he, natBytes_length _ _, fun i hi => ?_⟩
    rw [← h1, xorBytes, zipWith_getD (by omega) (by omega)]

/-- **C80.** The cipher is AES-256-GCM: with nonces of another length than 12 bytes, as those of rops, and texts up to 64
GiB. -/
theorem C80_gcm {key nonce p a c t : Bytes} (hk : key.length = 32) (h12 : nonce.length ≠ 12) (hn : nonce.length < 2 ^ 61)
    (hp : p.length ≤ 2 ^ 36) (ha : a.length ≤ 2 ^ 36) :
    aesGcm.encrypt nonce key p a = some (c, t) ↔ GcmEncrypts key nonce p a c t := by
  have hz : beNat (List.replicate 16 0) = 0 := by decide
  have hH : beNat (natBytes 16 (aesBlock (aesKeys key) 0)) = aesBlock (aesKeys key) 0 :=
    beNat_natBytes (by rw [show 256 ^ 16 = 2 ^ 128 by decide]; exact aesBlock_lt key 0)
  have hJ : beNat (natBytes 16 (gcmFirst (aesBlock (aesKeys key) 0) nonce)) = gcmFirst (aesBlock (aesKeys key) 0) nonce :=
    beNat_natBytes (by
      rw [show 256 ^ 16 = 2 ^ 128 by decide, gcmFirst, if_neg h12]
      exact ghash_lt (aesBlock_lt key 0) _)
  have henc : aesGcm.encrypt nonce key p a = some (gctr (aesKeys key) (inc32 (gcmFirst (aesBlock (aesKeys key) 0) nonce)) p,
      gcmTag (aesKeys key) (aesBlock (aesKeys key) 0) (gcmFirst (aesBlock (aesKeys key) 0) nonce) a
        (gctr (aesKeys key) (inc32 (gcmFirst (aesBlock (aesKeys key) 0) nonce)) p)) :=
    if_neg (by omega)
  have hcl := gctr_length (aesKeys key) (inc32 (gcmFirst (aesBlock (aesKeys key) 0) nonce)) p
  rw [henc]
  constructor
  · intro h
    obtain ⟨rfl, rfl⟩ := Prod.mk.inj (Option.some.inj h)
    refine ⟨_, _, (C80_block hk (by simp)).2 rfl, (firstBlock_iff (natBytes_length _ _) h12 (by omega)).2 rfl, ?_, ?_⟩
    · rw [streamed_iff hk (natBytes_length _ _), hz, hH, hJ]
    · rw [tagged_iff hk (natBytes_length _ _) (natBytes_length _ _) (by omega) (by omega), hz, hH, hJ]
  · rintro ⟨h, j, hh, hj, hc, ht⟩
    have hh := (C80_block hk (by simp)).1 hh
    rw [hz] at hh
    subst hh
    have hj := (firstBlock_iff (natBytes_length _ _) h12 (by omega)).1 hj
    rw [hH] at hj
    subst hj
    have hc := (streamed_iff hk (natBytes_length _ _)).1 hc
    rw [hJ] at hc
    subst hc
    have ht := (tagged_iff hk (natBytes_length _ _) (natBytes_length _ _) (by omega) (by omega)).1 ht
    rw [hH, hJ] at ht
    rw [ht]

example : GcmEncrypts mockKey mockNonce (utf8 c!"world!") (utf8 c!"hello:") [221, 45, 68, 245, 169, 191]
    [157, 5, 3, 146, 232, 116, 57, 29, 92, 141, 30, 97, 24, 46, 99, 59] :=
  (C80_gcm (by decide) (by decide) (by decide) (by decide) (by decide)).1 (by decide +kernel)

/-- **C80.** What stands in a file: every encrypted value is the AES-256-GCM encryption of the bytes of a value, with its
joined key path as associated data, and the MAC is that of the hex text of the SHA-512 digest of the covered bytes, with the
text of the last modified date as associated data. -/
theorem C80_file {env : Env} (hC : env.C = aesGcm) (hH : env.H = sha512) {F : Format} {rep : Value → Prop} {f : EncFile F}
    {key : Bytes} {m : RMap Value} {m' : RMap EncLeaf} (h : Holding env rep f key m m') :
    (∀ path e, (path, EncLeaf.encrypted e) ∈ leaves m' → ∃ v, (path, v) ∈ leaves m ∧ e.variant = v.variant ∧
      GcmEncrypts key e.nonce (plainBytes v) (utf8 (pathText path)) e.data e.tag) ∧
    (8 * (macInput env.rx f.metadata.partialEncryption (f.metadata.macOnlyEncrypted.getD false) m).length < 2 ^ 128 →
      ∃ d, Sha512Digest (macInput env.rx f.metadata.partialEncryption (f.metadata.macOnlyEncrypted.getD false) m) d ∧
        GcmEncrypts key f.metadata.mac.nonce (utf8 (hex d)) f.metadata.lastModified.toBytes f.metadata.mac.data f.metadata.mac.tag) := by
  have hk : key.length = 32 := h.key_length
  have gcm {e : EncValue} {p a : Bytes} (hs : e.Sized env.C) (he : env.C.encrypt e.nonce key p a = some (e.data, e.tag)) :
      GcmEncrypts key e.nonce p a e.data e.tag := by
    have hn : e.nonce.length = 32 := by rw [hs.nonce_length, hC]; rfl
    rw [hC] at he
    have hl := (aesGcm_encrypt_ok he).1
    exact (C80_gcm hk (by omega) (by omega) (by omega) (by omega)).1 he
  constructor
  · intro path e hm
    obtain ⟨⟨q, v⟩, hv, hs⟩ := h.sealed.2.mem' hm
    obtain ⟨hq, hs⟩ := hs
    rcases hs with ⟨_, hs⟩ | ⟨_, e', he, h1, h2, h3⟩
    · cases hs
    · cases he
      cases hq
      exact ⟨v, hv, h2, gcm h3 h1⟩
  · intro hl
    have hm := gcm h.mac_sized h.mac
    rw [macText, hH] at hm
    exact ⟨_, (C80_digest hl).2 rfl, hm⟩

example : ∃ (f : EncFile Format.json) (j : Nat) (d : Bytes), Toy.builder.encrypt gcmEnv 0 = .ok (f, j) ∧
    Sha512Digest (macInput gcmEnv.rx f.metadata.partialEncryption (f.metadata.macOnlyEncrypted.getD false) Toy.docMap) d ∧
    GcmEncrypts (gcmEnv.newKey 0) f.metadata.mac.nonce (utf8 (hex d)) f.metadata.lastModified.toBytes f.metadata.mac.data
      f.metadata.mac.tag := by
  have hc : (match Toy.builder.encrypt gcmEnv 0 with
    | .error _ => false
    | .ok (f, _) => decide (8 * (macInput gcmEnv.rx f.metadata.partialEncryption (f.metadata.macOnlyEncrypted.getD false)
        Toy.docMap).length < 2 ^ 128)) = true := by decide +kernel
  split at hc
  · cases hc
  rename_i f j h
  obtain ⟨m', _, _, hh, _⟩ := holding_of_builder gcmEnv_laws Format.json_lawful Toy.doc_read docMap_fits_gcm h
  obtain ⟨d, h1, h2⟩ := (C80_file rfl rfl hh).2 (of_decide_eq_true hc)
  exact ⟨f, j, d, h, h1, h2⟩

end Rops.Props
