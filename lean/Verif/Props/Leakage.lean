import Verif.Lemmas.Leakage
import Verif.Spec.ToyFile
/-!
# What an encrypted file shows

C47 and C48: what somebody without the data key can and cannot see.
-/

namespace Rops.Props
open Rops Spec

/-! ## C47 -/

/-- C47. Two maps that differ only in values to be encrypted, with the same types and byte
counts, are encrypted to the same map, for a cipher that shows only the length of plaintexts. -/
theorem C47_map (env : EncEnv) (hC : Opaque env.C env.key) (hs : env.saved = none)
    (cfg : Option PartialEncryption) (m n : RMap Value) (hk : cfg ≠ none → KeysAgree cfg m)
    (h : Alike env.rx cfg m n) (i : Nat) : RMap.encrypt env cfg m i = RMap.encrypt env cfg n i :=
  RMap.encrypt_alike hC hk h (fun s hs' => by rw [hs] at hs'; cases hs') i

/-- C47. Two documents that differ only in values to be encrypted, with the same types and byte
counts, make the same file, units, date and MAC included: the file shows of these values
nothing but types and lengths. -/
theorem C47_created (env : Env) {F : Format} (b c : Builder F) (i : Nat) (m n : RMap Value)
    (hb : F.toInternal b.map = .ok m) (hc : F.toInternal c.map = .ok n)
    (hset : c = { b with map := c.map }) (hC : Opaque env.C (env.newKey i)) (hH : FixedSize env.H)
    (hk : b.partialEncryption ≠ none → KeysAgree b.partialEncryption m) (h : Alike env.rx b.partialEncryption m n) :
    b.encrypt env i = c.encrypt env i := by
  obtain ⟨cmap, cp, cm, ca, ck⟩ := c
  cases hset
  have h1 := RMap.encrypt_alike (env := env.encEnv (env.newKey i) none) hC hk h (fun _ hs => by cases hs) (i + 1)
  have h2 : ∀ date j, Mac.encrypt env.C env.nonce (env.newKey i) date none
      (Mac.compute env.H env.rx (MacConfig.new b.macOnlyEncrypted b.partialEncryption) m) j =
      Mac.encrypt env.C env.nonce (env.newKey i) date none
      (Mac.compute env.H env.rx (MacConfig.new b.macOnlyEncrypted b.partialEncryption) n) j := fun date j =>
    Mac.encrypt_opaque hC (Mac.compute_length hH ..) (fun _ hs => by cases hs) j
  unfold Builder.encrypt Env.encryptMetadata
  simp only [hb, hc, h1, h2]

/-- C47. Encrypting a file again: the same, when everything else about the two files is the
same. -/
theorem C47_encrypted_again (env : Env) {F : Format} (Fo : Format) (f g : DecFile F) (i : Nat) (m n : RMap Value)
    (hf : F.toInternal f.map = .ok m) (hg : F.toInternal g.map = .ok n)
    (hset : g.metadata = { f.metadata with mac := g.metadata.mac })
    (hmac : f.metadata.mac.length = g.metadata.mac.length)
    (hC : ∀ key, env.retrieveDataKey f.metadata = .ok key → Opaque env.C key)
    (hk : f.metadata.partialEncryption ≠ none → KeysAgree f.metadata.partialEncryption m)
    (h : Alike env.rx f.metadata.partialEncryption m n) : f.encrypt Fo env i = g.encrypt Fo env i := by
  obtain ⟨gmap, gi, gl, gmac, gp, go⟩ := g
  cases hset
  unfold DecFile.encrypt
  have hr : env.retrieveDataKey { f.metadata with mac := gmac } = env.retrieveDataKey f.metadata := rfl
  simp only [hr]
  cases hkey : env.retrieveDataKey f.metadata with
  | error e => rfl
  | ok key =>
    have hC := hC key hkey
    have h1 := RMap.encrypt_alike (env := env.encEnv key none) hC hk h (fun _ hs => by cases hs) i
    have h2 : ∀ j, Mac.encrypt env.C env.nonce key f.metadata.lastModified none f.metadata.mac j =
        Mac.encrypt env.C env.nonce key f.metadata.lastModified none gmac j := fun j =>
      Mac.encrypt_opaque hC hmac (fun _ hs => by cases hs) j
    simp only [DecFile.encryptWith, Env.encryptMetadata, hf, hg, h1, h2]

/-- C47. An edit (encryption with saved parameters) shows besides which values, and whether the
MAC, are the same as before: two edits that agree in that, too, make the same file. -/
theorem C47_edited (env : Env) {F : Format} (Fo : Format) (p : SavedParameters) (f g : DecFile F) (i : Nat)
    (m n : RMap Value) (hf : F.toInternal f.map = .ok m) (hg : F.toInternal g.map = .ok n)
    (hset : g.metadata = { f.metadata with mac := g.metadata.mac })
    (hmac : f.metadata.mac.length = g.metadata.mac.length) (hC : Opaque env.C p.dataKey)
    (hk : f.metadata.partialEncryption ≠ none → KeysAgree f.metadata.partialEncryption m)
    (h : Alike env.rx f.metadata.partialEncryption m n) (hs : Zip (SameNonce p.mapNonces) (leaves m) (leaves n))
    (hm : p.macNonce.mac = f.metadata.mac ↔ p.macNonce.mac = g.metadata.mac) :
    f.encryptSaved Fo env p i = g.encryptSaved Fo env p i := by
  obtain ⟨gmap, gi, gl, gmac, gp, go⟩ := g
  cases hset
  have h1 := RMap.encrypt_alike (env := env.encEnv p.dataKey (some p.mapNonces)) hC hk h
    (fun _ h' => by cases h'; exact hs) i
  have h2 : ∀ j, Mac.encrypt env.C env.nonce p.dataKey f.metadata.lastModified (some p.macNonce) f.metadata.mac j =
      Mac.encrypt env.C env.nonce p.dataKey f.metadata.lastModified (some p.macNonce) gmac j := fun j =>
    Mac.encrypt_opaque hC hmac (fun _ h' => by cases h'; exact hm) j
  unfold DecFile.encryptSaved DecFile.encryptWith Env.encryptMetadata
  simp only [hf, hg, h1, h2]

/-- Example: a cipher that gives zeros. -/
def zeroCipher : Cipher where
  name := c!"AES256_GCM"
  nonceSize := 2
  tagSize := 2
  encrypt _ _ p _ := some (List.replicate p.length 0, [0, 0])
  decrypt _ _ _ _ _ := none

theorem zeroCipher_opaque (key : Bytes) : Opaque zeroCipher key := by
  intro n p q a h
  show some (List.replicate p.length (0 : UInt8), ([0, 0] : Bytes)) = some (List.replicate q.length 0, [0, 0])
  rw [h]

/-- Example: a hasher with digests of one byte. -/
def byteHasher : Hasher where
  State := Bytes
  init := []
  update s b := s ++ b
  finalize s := [Toy.sum s]

/-- Example: the environment with them. -/
def zeroEnv : Env := { Toy.env with C := zeroCipher, H := byteHasher }

/-- Example: a document with the same keys as `Toy.doc` and other secrets. -/
def otherDoc : Format.json.Map :=
  [(c!"user", .leaf (.str c!"toor")),
   (c!"db", .map [(c!"port_plain", .leaf (.num (.posInt 5432))), (c!"pw", .leaf (.str c!"y")), (c!"none", .null)]),
   (c!"l", .seq [.leaf (.bool true), .leaf (.num (.float c!"0.1")), .map [(c!"a_plain", .leaf (.num (.negInt (-1))))]])]

/-- Its map. -/
def otherMap : RMap Value :=
  [(c!"user", .leaf (.string c!"toor")),
   (c!"db", .map [(c!"port_plain", .leaf (.integer 5432)), (c!"pw", .leaf (.string c!"y")), (c!"none", .null)]),
   (c!"l", .seq [.leaf (.boolean true), .leaf (.float c!"0.1"), .map [(c!"a_plain", .leaf (.integer (-1)))]])]

theorem docMap_alike : Alike zeroEnv.rx (some (.unencryptedSuffix c!"_plain")) Toy.docMap otherMap := by
  refine ⟨rfl, ?_⟩
  have hl : leaves Toy.docMap = [([c!"user"], Value.string c!"root"), ([c!"db", c!"port_plain"], .integer 5432),
      ([c!"db", c!"pw"], .string c!"x"), ([c!"l"], .boolean true), ([c!"l"], .float c!"1.5"),
      ([c!"l", c!"a_plain"], .integer (-1))] := rfl
  have ho : leaves otherMap = [([c!"user"], Value.string c!"toor"), ([c!"db", c!"port_plain"], .integer 5432),
      ([c!"db", c!"pw"], .string c!"y"), ([c!"l"], .boolean true), ([c!"l"], .float c!"0.1"),
      ([c!"l", c!"a_plain"], .integer (-1))] := rfl
  rw [hl, ho]
  refine .cons ?_ (.cons ?_ (.cons ?_ (.cons ?_ (.cons ?_ (.cons ?_ .nil)))))
  · exact ⟨rfl, rfl, rfl, fun h => absurd h (by decide)⟩
  · exact ⟨rfl, rfl, rfl, fun _ => rfl⟩
  · exact ⟨rfl, rfl, rfl, fun h => absurd h (by decide)⟩
  · exact ⟨rfl, rfl, rfl, fun _ => rfl⟩
  · exact ⟨rfl, rfl, rfl, fun h => absurd h (by decide)⟩
  · exact ⟨rfl, rfl, rfl, fun _ => rfl⟩

example : Toy.builder.encrypt zeroEnv 0 = ({ Toy.builder with map := otherDoc } : Builder Format.json).encrypt zeroEnv 0 ∧
    (∃ f j, Toy.builder.encrypt zeroEnv 0 = .ok (f, j)) := by
  refine ⟨C47_created zeroEnv Toy.builder { Toy.builder with map := otherDoc } 0 Toy.docMap otherMap rfl rfl rfl
    (zeroCipher_opaque _) (fun _ _ => rfl) Toy.docMap_fits.keys docMap_alike, ?_⟩
  have h : (match Toy.builder.encrypt zeroEnv 0 with | .ok _ => true | .error _ => false) = true := by decide +kernel
  cases hb : Toy.builder.encrypt zeroEnv 0 with
  | error e => rw [hb] at h; cases h
  | ok r => exact ⟨r.1, r.2, rfl⟩

/-- Example: the two documents set in a file encrypted before. -/
def twoFiles (map : Format.json.Map) (mac : Bytes) : DecFile Format.json where
  map := map
  metadata :=
    { integration := { kms := [], age := [{ keyId := c!"pk1", createdAt := none, enc := c!"" }] }
      lastModified := ⟨2024, 1, 2, 3, 4, 5, 0⟩, mac
      partialEncryption := some (.unencryptedSuffix c!"_plain"), macOnlyEncrypted := none }

example : (twoFiles Toy.doc [65, 66]).encryptSaved Format.json zeroEnv ⟨[1], [((c!"db:pw:", .string c!"z"), [9, 9])], ⟨[67], [8, 8]⟩⟩ 0 =
    (twoFiles otherDoc [66, 66]).encryptSaved Format.json zeroEnv ⟨[1], [((c!"db:pw:", .string c!"z"), [9, 9])], ⟨[67], [8, 8]⟩⟩ 0 := by
  refine C47_edited zeroEnv Format.json _ _ _ 0 Toy.docMap otherMap rfl rfl rfl rfl (zeroCipher_opaque _)
    Toy.docMap_fits.keys docMap_alike ?_ (by decide)
  refine .cons ?_ (.cons ?_ (.cons ?_ (.cons ?_ (.cons ?_ (.cons ?_ .nil))))) <;> exact rfl

/-! ## C48 -/

/-- C48. What is visible: keys, order, nesting, nulls and lengths of sequences, and of each
encrypted value its type and its number of bytes. -/
theorem C48_visible (env : EncEnv) (hC : LengthPreserving env.C) (cfg : Option PartialEncryption) (m : RMap Value)
    (hk : cfg ≠ none → KeysAgree cfg m) (i : Nat) (m' : RMap EncLeaf) (j : Nat) (h : RMap.encrypt env cfg m i = .ok (m', j)) :
    shapeMap m' = shapeMap m ∧ ∀ (n : Nat) (p : List Str) (v : Value), (leaves m)[n]? = some (p, v) → ¬ Plain env.rx cfg p →
      ∃ e, (leaves m')[n]? = some (p, .encrypted e) ∧ e.variant = v.variant ∧ e.data.length = (plainBytes v).length := by
  obtain ⟨h1, h2⟩ := RMap.encrypt_ok_iff.1 h
  refine ⟨h1, fun n p v hv hp => ?_⟩
  obtain ⟨l, s1, s2, hl, hf⟩ := travList_getElem h2 hv
  rcases EncEnv.leafAt_ok.1 hf with ⟨hq, _⟩ | ⟨_, e, rfl, he, _⟩
  · exact absurd ((plain_lastPart hk (List.mem_of_getElem? hv)).1 hq) hp
  · obtain ⟨h3, _, h4⟩ := Value.encrypt_iff.1 he
    exact ⟨e, hl, h4, hC h3⟩

/-- The guess: a ciphertext of four bytes is that of true. -/
def guess (C : Cipher) (s : Str) : Option Bool :=
  match EncValue.parse C s with
  | .ok e => some (e.data.length == 4)
  | .error _ => none

/-- C48. Encrypted Booleans can be read without the data key: there is a function that gives
the Boolean from the text of its encryption, whatever key, nonce and key path were used. -/
theorem C48_booleans (C : Cipher) (hC : LengthPreserving C) (hL : C.Lawful) :
    ∃ read : Str → Option Bool, ∀ (nonce key : Bytes) (path : Str) (b : Bool) (e : EncValue),
      nonce.length = C.nonceSize → (Value.boolean b).encrypt C nonce key path = some e →
      read (e.toText C) = some b := by
  refine ⟨guess C, fun nonce key path b e hn he => ?_⟩
  obtain ⟨h1, h2, h3⟩ := Value.encrypt_iff.1 he
  have hs : e.Sized C := ⟨by rw [h2]; exact hn, hL.tag_length h1⟩
  unfold guess
  rw [EncValue.parse_toText hL.name_no_comma hs]
  have := hC h1
  simp only [this]
  cases b <;> rfl

theorem toy_lengthPreserving : LengthPreserving Toy.cipher := by
  intro n k p a c t h
  have h : some (Toy.mask n k p, Toy.tag n k p a) = some (c, t) := h
  injection h with h
  injection h with h1 _
  rw [← h1]
  simp [Toy.mask]

example : guess Toy.cipher (match (Value.boolean true).encrypt Toy.cipher [1, 2] [3] c!"a:" with
    | some e => e.toText Toy.cipher
    | none => []) = some true ∧
    guess Toy.cipher (match (Value.boolean false).encrypt Toy.cipher [7, 2] [4] c!"b:" with
    | some e => e.toText Toy.cipher
    | none => []) = some false := by decide +kernel

end Rops.Props
