import Verif.Lemmas.Nonces
import Verif.Lemmas.Mac
import Verif.Spec.Toy
/-!
# Properties of map encryption and the MAC

C01, C07, C08, C09, C10, C14, C15 and C18, at the level of maps.
-/

namespace Rops.Props
open Rops Spec Toy

/-- Example map: strings, an integer, a boolean, a float, nesting, a null and a sequence. -/
def sampleMap : RMap Value :=
  [(c!"user", .leaf (.string c!"root")),
   (c!"db", .map [(c!"port_plain", .leaf (.integer 5432)), (c!"pw", .leaf (.string c!"x")), (c!"none", .null)]),
   (c!"l", .seq [.leaf (.boolean true), .leaf (.float c!"1.5"), .map [(c!"a_plain", .leaf (.integer (-1)))]])]

/-- Example environment: toy cipher, suffix regexes, nonces counted in one byte. -/
def sampleEnv (saved : Option SavedNonces) : EncEnv where
  C := Toy.cipher
  rx := fun r k => endsWith k r
  key := [1, 2, 3]
  saved := saved
  tape := fun i => [UInt8.ofNat i, 0]

def sampleCfg : Option PartialEncryption := some (.unencryptedSuffix c!"_plain")

theorem sampleMap_canonical : Canonical Toy.floats sampleMap := by
  intro pv h
  have h : pv ∈ [([c!"user"], Value.string c!"root"), ([c!"db", c!"port_plain"], .integer 5432),
      ([c!"db", c!"pw"], .string c!"x"), ([c!"l"], .boolean true), ([c!"l"], .float c!"1.5"),
      ([c!"l", c!"a_plain"], .integer (-1))] := h
  simp only [List.mem_cons, List.not_mem_nil, or_false] at h
  rcases h with rfl | rfl | rfl | rfl | rfl | rfl
  · trivial
  · trivial
  · trivial
  · trivial
  · show Toy.floats.Canonical _; unfold FloatOps.Canonical; decide
  · trivial

/-! ## C01 -/

/-- C01. Decrypting a map that was encrypted with the same cipher and data key gives back
exactly the map, for every setting, tape of random nonces and saved nonces (`env.saved`,
`none` for a first encryption). -/
theorem C01_map_round_trip (env : EncEnv) (hC : env.C.Lawful) (fl : FloatOps)
    (cfg : Option PartialEncryption) (m : RMap Value) (hm : Canonical fl m) (i : Nat)
    (m' : RMap EncLeaf) (j : Nat) (h : RMap.encrypt env cfg m i = .ok (m', j)) :
    RMap.decrypt { C := env.C, fl := fl, key := env.key } m' = .ok m :=
  RMap.decrypt_encrypt hC ⟨rfl, rfl⟩ hm h

/-- C01. The same with the decryption that saves the nonces. -/
theorem C01_map_round_trip_save (env : EncEnv) (hC : env.C.Lawful) (fl : FloatOps)
    (cfg : Option PartialEncryption) (m : RMap Value) (hm : Canonical fl m) (i : Nat)
    (m' : RMap EncLeaf) (j : Nat) (h : RMap.encrypt env cfg m i = .ok (m', j)) :
    ∃ s, RMap.decryptAndSave { C := env.C, fl := fl, key := env.key } m' = .ok (m, s) :=
  ⟨_, RMap.decryptAndSave_of_decrypt (C01_map_round_trip env hC fl cfg m hm i m' j h)⟩

/-- C01. Encryption of a map succeeds when the cipher does. -/
theorem C01_map_encrypt_total (env : EncEnv) (hC : env.C.Total) (cfg : Option PartialEncryption)
    (m : RMap Value) (i : Nat) : ∃ m' j, RMap.encrypt env cfg m i = .ok (m', j) :=
  RMap.encrypt_total hC cfg m i

example : ∃ m' j, RMap.encrypt (sampleEnv none) sampleCfg sampleMap 0 = .ok (m', j) ∧
    RMap.decrypt ⟨Toy.cipher, Toy.floats, [1, 2, 3]⟩ m' = .ok sampleMap := by
  obtain ⟨m', j, h⟩ := C01_map_encrypt_total (sampleEnv none) Toy.cipher_total sampleCfg sampleMap 0
  exact ⟨m', j, h, C01_map_round_trip _ Toy.cipher_lawful _ _ _ sampleMap_canonical _ _ _ h⟩

/-! ## C07 and C08 -/

/-- C07. The leaf at each position of the encrypted map is at the same key path as in the
plaintext map; it is the plaintext value when the setting says so for the keys on its
path, and otherwise it is an encryption of the value with the key path as associated data. -/
theorem C07_partial_encryption (env : EncEnv) (cfg : Option PartialEncryption) (m : RMap Value)
    (hk : cfg ≠ none → KeysAgree cfg m) (i : Nat) (m' : RMap EncLeaf) (j : Nat) (h : RMap.encrypt env cfg m i = .ok (m', j))
    (n : Nat) (p : List Str) (v : Value) (hv : (leaves m)[n]? = some (p, v)) :
    (Plain env.rx cfg p → (leaves m')[n]? = some (p, .escaped v)) ∧
    (¬ Plain env.rx cfg p → ∃ e, (leaves m')[n]? = some (p, .encrypted e) ∧ e.variant = v.variant ∧
      env.C.encrypt e.nonce env.key (plainBytes v) (utf8 (pathText p)) = some (e.data, e.tag)) := by
  obtain ⟨_, h2⟩ := RMap.encrypt_ok_iff.1 h
  obtain ⟨l, s1, s2, hl, hf⟩ := travList_getElem h2 hv
  rw [EncEnv.leafAt_ok, plain_lastPart hk (List.mem_of_getElem? hv)] at hf
  rcases hf with ⟨h1, rfl, rfl⟩ | ⟨h1, e, rfl, he, rfl⟩
  · exact ⟨fun _ => hl, fun hn => absurd h1 hn⟩
  · refine ⟨fun hn => absurd hn h1, fun _ => ⟨e, hl, ?_⟩⟩
    unfold Value.encrypt at he
    split at he
    · rename_i d t heq
      cases he
      exact ⟨rfl, by rw [← Value.asBytes_eq]; exact heq⟩
    · cases he

/-- C07. Without a setting every value is encrypted. -/
theorem C07_no_setting (env : EncEnv) (m : RMap Value) (i : Nat) (m' : RMap EncLeaf) (j : Nat)
    (h : RMap.encrypt env none m i = .ok (m', j)) :
    ∀ pl ∈ leaves m', ∃ e, pl.2 = .encrypted e := by
  intro pl hpl
  obtain ⟨n, hn⟩ := List.mem_iff_getElem?.1 hpl
  obtain ⟨_, h2⟩ := RMap.encrypt_ok_iff.1 h
  obtain ⟨v, s1, s2, _, hf⟩ := travList_getElem' h2 (p := pl.1) (b := pl.2) hn
  rcases EncEnv.leafAt_ok.1 hf with ⟨h1, _⟩ | ⟨_, e, he, _⟩
  · exact h1.elim
  · exact ⟨e, he⟩

/-- C07. A match decides for all descendants: extending the path does not change it. -/
theorem C07_match_locks (rx : RegexMatch) (cfg : PartialEncryption) (p : List Str) (k : Str) (q : List Str)
    (h : Matches rx cfg k) : Plain rx (some cfg) (p ++ k :: q) ↔
      (∃ s, cfg = .unencryptedSuffix s) ∨ ∃ r, cfg = .unencryptedRegex r := by
  cases cfg with
  | encryptedSuffix s | encryptedRegex r =>
    simp only [Plain]
    constructor
    · intro hn; exact absurd h (hn k (by simp))
    · rintro (⟨_, h⟩ | ⟨_, h⟩) <;> cases h
  | unencryptedSuffix s | unencryptedRegex s =>
    simp only [Plain]
    constructor
    · intro _; simp
    · intro _; exact ⟨k, by simp, h⟩

example : NoColon sampleMap ∧
    (leaves sampleMap)[1]? = some ([c!"db", c!"port_plain"], .integer 5432) ∧
    Plain (sampleEnv none).rx sampleCfg [c!"db", c!"port_plain"] ∧
    (leaves sampleMap)[2]? = some ([c!"db", c!"pw"], .string c!"x") ∧
    ¬ Plain (sampleEnv none).rx sampleCfg [c!"db", c!"pw"] := by
  unfold NoColon; decide

/-- C08. With any keys, the decision is made on the parts of the keys after their last
':' (`lastPart`). -/
theorem C08_decision_any_keys (env : EncEnv) (cfg : Option PartialEncryption) (m : RMap Value)
    (i : Nat) (m' : RMap EncLeaf) (j : Nat) (h : RMap.encrypt env cfg m i = .ok (m', j))
    (n : Nat) (p : List Str) (v : Value) (hv : (leaves m)[n]? = some (p, v)) :
    (leaves m')[n]? = some (p, .escaped v) ↔ Plain env.rx cfg (p.map lastPart) := by
  obtain ⟨_, h2⟩ := RMap.encrypt_ok_iff.1 h
  obtain ⟨l, s1, s2, hl, hf⟩ := travList_getElem h2 hv
  rcases EncEnv.leafAt_ok.1 hf with ⟨h1, rfl, rfl⟩ | ⟨h1, e, rfl, he, rfl⟩
  · exact ⟨fun _ => h1, fun _ => hl⟩
  · rw [hl]
    exact ⟨fun hh => by simp at hh, fun hh => absurd hh h1⟩

/-- C08 (negative). There are a setting and a map with a key containing ':' whose value must
be encrypted (the key has the `encrypted_suffix`), and which every encryption stores in
plaintext. -/
theorem C08_colon_key_leaks : ∃ (cfg : PartialEncryption) (m : RMap Value) (p : List Str) (v : Value),
    (leaves m)[0]? = some (p, v) ∧ (∀ rx, ¬ Plain rx (some cfg) p) ∧
    ∀ (env : EncEnv) (i : Nat), ∃ m', RMap.encrypt env (some cfg) m i = .ok (m', i) ∧
      (leaves m')[0]? = some (p, .escaped v) := by
  refine ⟨.encryptedSuffix c!":secret", [(c!"db:secret", .leaf (.string c!"pw"))], [c!"db:secret"],
    .string c!"pw", rfl, ?_, ?_⟩
  · intro rx; simp only [Plain]; intro h
    exact h _ (List.mem_singleton.2 rfl) (by simp only [Matches]; decide)
  · intro env i
    exact ⟨[(c!"db:secret", .leaf (.escaped (.string c!"pw")))], rfl, rfl⟩

/-! ## C09 -/

/-- C09. Encryption keeps everything but the leaf values. -/
theorem C09_encrypt_shape (env : EncEnv) (cfg : Option PartialEncryption) (m : RMap Value) (i : Nat)
    (m' : RMap EncLeaf) (j : Nat) (h : RMap.encrypt env cfg m i = .ok (m', j)) : shapeMap m' = shapeMap m :=
  (RMap.encrypt_ok_iff.1 h).1

/-- C09. So does decryption, of any map, whether or not nonces are saved. -/
theorem C09_decrypt_shape (env : DecEnv) (m' : RMap EncLeaf) (m : RMap Value) :
    (RMap.decrypt env m' = .ok m → shapeMap m = shapeMap m') ∧
    (∀ s, RMap.decryptAndSave env m' = .ok (m, s) → shapeMap m = shapeMap m') :=
  ⟨fun h => (RMap.decrypt_ok_iff.1 h).1, fun _ h => (RMap.decryptAndSave_ok_iff.1 h).1⟩

/-- C09. Shape and leaves determine a map, so nothing else could change. -/
theorem C09_shape_and_leaves {α : Type} (m1 m2 : RMap α) (hs : shapeMap m1 = shapeMap m2)
    (hl : leaves m1 = leaves m2) : m1 = m2 := ext_of_shape_leaves.2.2 m1 m2 [] hs hl

example : shapeMap sampleMap = [(c!"user", .leaf ()),
    (c!"db", .map [(c!"port_plain", .leaf ()), (c!"pw", .leaf ()), (c!"none", .null)]),
    (c!"l", .seq [.leaf (), .leaf (), .map [(c!"a_plain", .leaf ())]])] := rfl

/-! ## C10 -/

/-- C10, map part. In a first encryption the nonces of the encrypted values are, in document
order, the draws made during the encryption. -/
theorem C10_map_nonces (env : EncEnv) (hs : env.saved = none) (cfg : Option PartialEncryption)
    (m : RMap Value) (i : Nat) (m' : RMap EncLeaf) (j : Nat) (h : RMap.encrypt env cfg m i = .ok (m', j)) :
    i ≤ j ∧ nonces m' = (List.range' i (j - i)).map env.tape :=
  nonces_fresh hs (RMap.encrypt_ok_iff.1 h).2

/-- C10, map part. If the random generator does not repeat during the encryption, no two values have the same nonce. -/
theorem C10_map_nonces_distinct (env : EncEnv) (hs : env.saved = none)
    (cfg : Option PartialEncryption) (m : RMap Value) (i : Nat) (m' : RMap EncLeaf) (j : Nat)
    (ht : NoRepeat env.tape i j) (h : RMap.encrypt env cfg m i = .ok (m', j)) : (nonces m').Nodup := by
  rw [(C10_map_nonces env hs cfg m i m' j h).2]
  have hle := (C10_map_nonces env hs cfg m i m' j h).1
  refine List.pairwise_map.2 (List.Pairwise.imp_of_mem ?_ (List.nodup_range' (s := i) (n := j - i)))
  intro a b ha hb hab hh
  rw [List.mem_range'_1] at ha hb
  exact hab (ht a b ha.1 (by omega) hb.1 (by omega) hh)

example : NoRepeat (sampleEnv none).tape 0 256 := by
  intro a b _ ha _ hb h
  have h : ([UInt8.ofNat a, 0] : Bytes) = [UInt8.ofNat b, 0] := h
  injection h with h _
  have := congrArg UInt8.toNat h
  simp only [UInt8.toNat_ofNat'] at this
  omega

/-! ## C14 and C18 -/

/-- C14. The MAC is the upper case hex text of the hash of the covered values' bytes. -/
theorem C14_mac_covers (H : Hasher) (hH : H.Streaming) (rx : RegexMatch) (cfg : Option PartialEncryption)
    (only : Option Bool) (m : RMap Value) :
    Mac.compute H rx (MacConfig.new only cfg) m =
      utf8 (hex (H.digest (macInput rx cfg (only.getD false) m))) :=
  Mac.compute_eq hH rx cfg only m

/-- C14. Without `mac_only_encrypted` all values are covered. -/
theorem C14_covers_all (rx : RegexMatch) (cfg : Option PartialEncryption) (m : RMap Value) :
    hashed rx cfg false m = (leaves m).map Prod.snd := by
  unfold hashed
  rw [List.filter_eq_self.2 (by simp)]

/-- C14. The hex text determines the digest. -/
theorem C14_hex_injective (a b : Bytes) (h : hex a = hex b) : a = b := hex_injective h

example : hex macPrefix = c!"8A3FD2AD54CE66527B1034F3D147BE0B0B975B3BF44F72C6FDADEC8176F27D69" := by decide +kernel

/-- C18. With `mac_only_encrypted`, two maps with the same encrypted values at the same key
paths have the same MAC, whatever their plaintext values are. -/
theorem C18_plaintext_not_covered (H : Hasher) (hH : H.Streaming) (rx : RegexMatch)
    (cfg : Option PartialEncryption) (m1 m2 : RMap Value)
    (h : (leaves m1).filter (fun pv => ¬ Plain rx cfg pv.1) = (leaves m2).filter (fun pv => ¬ Plain rx cfg pv.1)) :
    Mac.compute H rx (MacConfig.new (some true) cfg) m1 = Mac.compute H rx (MacConfig.new (some true) cfg) m2 := by
  rw [Mac.compute_eq hH, Mac.compute_eq hH]
  unfold macInput hashed
  simp only [Option.getD_some, true_and]
  rw [h]

/-- C18. Without it, maps with the same MAC agree on the bytes of all their values, or a hash
collision is at hand. -/
theorem C18_all_covered (H : Hasher) (hH : H.Streaming) (rx : RegexMatch) (cfg : Option PartialEncryption)
    (only : Option Bool) (ho : only ≠ some true) (m1 m2 : RMap Value)
    (h : Mac.compute H rx (MacConfig.new only cfg) m1 = Mac.compute H rx (MacConfig.new only cfg) m2) :
    ((leaves m1).flatMap fun pv => plainBytes pv.2) = ((leaves m2).flatMap fun pv => plainBytes pv.2) ∨
    Collide H ((leaves m1).flatMap fun pv => plainBytes pv.2) ((leaves m2).flatMap fun pv => plainBytes pv.2) := by
  have ho : only.getD false = false := by
    rcases only with _ | (_ | _)
    · rfl
    · rfl
    · exact absurd rfl ho
  have := Mac.compute_inj hH h
  rw [ho] at this
  simp only [macInput, C14_covers_all, Bool.false_eq_true, if_false, List.nil_append, List.flatMap_map] at this
  by_cases e : ((leaves m1).flatMap fun pv => plainBytes pv.2) = ((leaves m2).flatMap fun pv => plainBytes pv.2)
  · exact .inl e
  · exact .inr ⟨e, this⟩

example : macInput (sampleEnv none).rx sampleCfg false sampleMap
    = utf8 c!"root5432xTrue1.5-1" := by decide +kernel

example : macInput (sampleEnv none).rx sampleCfg true sampleMap
    = macPrefix ++ utf8 c!"rootxTrue1.5" := by decide +kernel

example : ((leaves [(c!"a_plain", Tree.leaf (Value.integer 1)), (c!"s", .leaf (.string c!"x"))]).filter
      (fun pv => ¬ Plain (sampleEnv none).rx sampleCfg pv.1)
    = (leaves [(c!"a_plain", Tree.leaf (Value.string c!"other")), (c!"s", .leaf (.string c!"x"))]).filter
      (fun pv => ¬ Plain (sampleEnv none).rx sampleCfg pv.1)) := by decide +kernel

/-! ## C15 -/

/-- C15. A map that decrypts, given the set of ciphertexts honestly made under the key, either
contains a forgery or each of its encrypted leaves is one of those ciphertexts, made with the
key path it is found at as associated data. -/
theorem C15_bound_to_path (env : DecEnv) (honest : Bytes → Bytes → Bytes → Bytes → Prop)
    (m' : RMap EncLeaf) (m : RMap Value) (h : RMap.decrypt env m' = .ok m) :
    Forged env.C env.key honest m' ∨
      ∀ p e, (p, EncLeaf.encrypted e) ∈ leaves m' → honest e.nonce e.data (utf8 (pathText p)) e.tag := by
  by_cases hf : ∀ p e, (p, EncLeaf.encrypted e) ∈ leaves m' → honest e.nonce e.data (utf8 (pathText p)) e.tag
  · exact .inr hf
  · left
    simp only [Classical.not_forall] at hf
    obtain ⟨p, e, hm, hn⟩ := hf
    refine ⟨p, e, hm, ?_, hn⟩
    obtain ⟨_, hd⟩ := RMap.decrypt_ok_iff.1 h
    obtain ⟨v, hv⟩ := DecryptsTo.mem hd hm
    simp only [DecEnv.value, EncValue.decrypt] at hv
    intro hnone
    rw [hnone] at hv
    cases hv

/-- C15. The same when the honest ciphertexts are those of an original map: for keys without
':' each encrypted leaf of a modified map that decrypts was encrypted at exactly the same
list of keys, and the decrypted value has the bytes of the original value read at the type
tag found in the modified map; or the modified map contains a forgery. -/
theorem C15_moved_value (env : EncEnv) (hC : env.C.Lawful) (fl : FloatOps) (cfg : Option PartialEncryption)
    (m0 : RMap Value) (i : Nat) (m0' : RMap EncLeaf) (j : Nat) (h0 : RMap.encrypt env cfg m0 i = .ok (m0', j))
    (hk0 : NoColon m0')
    (m1' : RMap EncLeaf) (m1 : RMap Value) (hk1 : NoColon m1')
    (h : RMap.decrypt { C := env.C, fl := fl, key := env.key } m1' = .ok m1)
    (hf : ¬ Forged env.C env.key (SealedIn m0') m1')
    (n : Nat) (p : List Str) (e : EncValue) (hl : (leaves m1')[n]? = some (p, .encrypted e)) :
    ∃ (n0 : Nat) (e0 : EncValue) (v0 v1 : Value), (leaves m0')[n0]? = some (p, .encrypted e0) ∧
      (leaves m0)[n0]? = some (p, v0) ∧ (leaves m1)[n]? = some (p, v1) ∧
      e = { e0 with variant := e.variant } ∧ Value.fromBytes fl (plainBytes v0) e.variant = .ok v1 := by
  have hmem := List.mem_of_getElem? hl
  rcases C15_bound_to_path _ (SealedIn m0') m1' m1 h with hh | hh
  · exact absurd hh hf
  obtain ⟨q, e0, hq, h1, h2, h3, h4⟩ := hh p e hmem
  have hpq : p = q := pathText_injective (hk1 _ hmem) (hk0 _ hq) (utf8_injective h3)
  subst hpq
  obtain ⟨n0, hn0⟩ := List.mem_iff_getElem?.1 hq
  obtain ⟨_, ht⟩ := RMap.encrypt_ok_iff.1 h0
  obtain ⟨v0, s1, s2, hv0, hfl⟩ := travList_getElem' ht hn0
  obtain ⟨_, hd⟩ := RMap.decrypt_ok_iff.1 h
  obtain ⟨v1, hv1, hval⟩ := DecryptsTo.getElem hd hl
  refine ⟨n0, e0, v0, v1, hn0, hv0, hv1, ?_, ?_⟩
  · cases e; cases e0; simp only at h1 h2 h4; simp [h1, h2, h4]
  · rcases EncEnv.leafAt_ok.1 hfl with ⟨_, hx, _⟩ | ⟨_, e', hx, he, _⟩
    · cases hx
    · cases hx
      unfold Value.encrypt at he
      split at he
      · rename_i d t heq
        cases he
        simp only at h1 h2 h4
        simp only [DecEnv.value, EncValue.decrypt, ← h1, ← h2, ← h4, hC.decrypt_encrypt heq] at hval
        rw [← Value.asBytes_eq]
        cases hb : Value.fromBytes fl v0.asBytes e.variant with
        | ok w => rw [hb] at hval; simp only [Except.ok.injEq] at hval; rw [hval]
        | error w => rw [hb] at hval; cases hval
      · cases he

/-- A ciphertext moved to another key is rejected by the toy cipher; at its own key it is
accepted: the hypotheses of `C15_moved_value` are met by the unmodified map. -/
example : ∃ e, Value.encrypt Toy.cipher [5, 6] [1, 2, 3] (pathText [c!"a"]) (.string c!"pw") = some e ∧
    (e.decrypt Toy.cipher Toy.floats [1, 2, 3] (pathText [c!"b"])) = .error .cipher ∧
    (e.decrypt Toy.cipher Toy.floats [1, 2, 3] (pathText [c!"a"])) = .ok (.string c!"pw") :=
  ⟨_, rfl, by decide +kernel, by decide +kernel⟩

/-- The unmodified map contains no forgery. -/
example (C : Cipher) (key : Bytes) (m : RMap EncLeaf) : ¬ Forged C key (SealedIn m) m := by
  rintro ⟨p, e, hm, _, hn⟩
  exact hn ⟨p, e, hm, rfl, rfl, rfl, rfl⟩

end Rops.Props
