import Verif.Lemmas.Colons
import Verif.Props.Leakage
import Verif.Spec.ToyFile
/-!
# C08: files whose keys contain ':'

Beside the theorems on maps in `Verif.Props.Maps`.
-/

namespace Rops.Props
open Rops Spec

variable {env : Env} {x : Fmt} {b : Builder x.doc.F} {m : RMap Value} {i j : Nat} {f : EncFile x.doc.F}

/-- **C08.** A file with a value that encryption stores in plaintext and that the reader expects to be encrypted is
never decrypted, with any keys: unless the value is itself a text of the form of an encrypted value. -/
theorem C08_unreadable (he : EnvLaws env) (hb : x.doc.F.toInternal b.map = .ok m) (hm : Holds (docRep x) m)
    (h : b.encrypt env i = .ok (f, j)) {p : List Str} {v : Value} (hv : (p, v) ∈ leaves m)
    (hw : WronglyPlain env.rx b.partialEncryption p) (ht : ∀ t e, v = .string t → ¬ EncSyntax env.C t e)
    (host : Host) (Fo : Format) (g : DecFile Fo) : f.decrypt Fo (env.withHost host) ≠ .ok g := by
  intro hg
  obtain ⟨m1, m', i1, im, i2, h1, h2, h3, h4, h5, h6⟩ := Builder.encrypt_ok h
  rw [hb] at h1
  cases h1
  obtain ⟨hs, hz⟩ := stored_of_encrypt (env := env.encEnv (env.newKey i) none) he.cipher he.nonce_length
    (fun t ht => by cases ht) h2
  obtain ⟨k, m2', m2, a1, a2, _⟩ := decrypt_ok_iff.1 hg
  have hcfg : f.metadata.partialEncryption = b.partialEncryption := by rw [h6]
  rw [hcfg] at a2
  have hrep : ∀ p v, (p, EncLeaf.escaped v) ∈ leaves m' → docRep x v := by
    intro p v hpv
    obtain ⟨⟨q, w⟩, hq, hr, h3⟩ := hz.mem' hpv
    simp only at hr h3
    rcases h3 with ⟨_, h4⟩ | ⟨_, e, h4, _⟩
    · cases h4; exact hm _ hq
    · cases h4
  obtain ⟨_, a3⟩ := (written_read x hrep h5 m2').1 a2
  obtain ⟨n, hn⟩ := List.mem_iff_getElem?.1 hv
  obtain ⟨⟨q, l⟩, hl, e1, e2⟩ := hz.getElem hn
  simp only at e1 e2
  subst e1
  rcases e2 with ⟨_, rfl⟩ | ⟨hn, _⟩
  · obtain ⟨t, e, b1, _, b2⟩ := (a3 n q _ hl).2 hw.2
    have b2 := (C04_enc_text_accepted_iff env.C he.cipher t e).1 b2
    cases v with
    | string s => cases b1; exact ht _ _ rfl b2
    | _ => cases b1
  · exact hn hw.1

/-- **C08.** If there is no such value, then the reader sees each value that was encrypted and is expected in plaintext
as the text of its encryption, and all others as they were. With `mac_only_encrypted` such a file is decrypted without
an error wherever a data key is found, and gives the wrong values. Without it, it is decrypted only if the digests of
the right and of the wrong values are equal. -/
theorem C08_misread (he : EnvLaws env) (hb : x.doc.F.toInternal b.map = .ok m) (hm : Holds (docRep x) m)
    (hc : Canonical env.fl m) (h : b.encrypt env i = .ok (f, j))
    (hw : ∀ pv ∈ leaves m, ¬ WronglyPlain env.rx b.partialEncryption pv.1) (y : Fmt) (hy : Holds (docRep y) m) :
    ∃ m2, Misread env.C env.rx (env.newKey i) b.partialEncryption m m2 ∧
      (∀ host g, f.decrypt y.doc.F (env.withHost host) = .ok g → y.doc.F.toInternal g.map = .ok m2) ∧
      (∀ host d, (env.withHost host).retrieveDataKey f.metadata = .ok d →
        ((∃ g, f.decrypt y.doc.F (env.withHost host) = .ok g) ↔ b.macOnlyEncrypted = some true ∨
          env.H.digest (macInput env.rx b.partialEncryption false m2) =
          env.H.digest (macInput env.rx b.partialEncryption false m))) := by
  obtain ⟨m1, m', i1, im, i2, h1, h2, h3, h4, h5, h6⟩ := Builder.encrypt_ok h
  rw [hb] at h1
  cases h1
  obtain ⟨hs, hz⟩ := stored_of_encrypt (env := env.encEnv (env.newKey i) none) he.cipher he.nonce_length
    (fun t ht => by cases ht) h2
  obtain ⟨m2', m2, c1, c2, c3⟩ := misread_exists he.cipher (fl := env.fl) hs hz hc hw x hm h5
  have e1 : f.metadata.integration = im := by rw [h6]
  have e2 : f.metadata.partialEncryption = b.partialEncryption := by rw [h6]
  have e3 : f.metadata.macOnlyEncrypted = b.macOnlyEncrypted := by rw [h6]
  have e4 : f.metadata.lastModified = (env.clock i2).truncate := by rw [h6]
  obtain ⟨_, hall, _, _, _⟩ := intoMetadata_ok h3
  have hmac := he.cipher.decrypt_encrypt (Mac.encrypt_ok h4).1
  have hall : AllWrap env.A env.K f.metadata.integration (env.newKey i) := by rw [e1]; exact hall
  have hrep : Holds (docRep y) m2 := by
    intro pw hpw
    obtain ⟨pv, hpv, q1, q2⟩ := c3.2.mem' hpw
    rcases q2 with ⟨_, q3⟩ | ⟨_, e, _, q3⟩
    · rw [q3]; exact hy _ hpv
    · rw [q3]; exact docRep_encText y env.C e
  obtain ⟨z, z1, z2⟩ := (docRep_lawful y).round_trip m2 hrep
  have hread : ∀ host : Host, x.doc.F.encToInternal (env.withHost host).C (env.withHost host).rx
      (Resolved.ofConfig f.metadata.partialEncryption) f.map = .ok m2' := by intro host; rw [e2]; exact c1
  have hdec : ∀ host : Host, RMap.decrypt ((env.withHost host).decEnv (env.newKey i)) m2' = .ok m2 := fun _ => c2
  have hkey : ∀ host d, (env.withHost host).retrieveDataKey f.metadata = .ok d → d = env.newKey i := fun host d hd =>
    (retrieve_of_allWrap (env := env.withHost host) (he.withHost host) (he.key_length i) hall hd)
  refine ⟨m2, c3, ?_, ?_⟩
  · intro host g hg
    obtain ⟨k, n', n, a1, a2, a3, _, a5, _⟩ := decrypt_ok_iff.1 hg
    cases hkey host k a1
    rw [hread] at a2
    cases a2
    rw [hdec] at a3
    cases a3
    rw [z1] at a5
    cases a5
    exact z2
  · intro host d hd
    cases hkey host d hd
    have hmm : ∀ n : RMap Value, (env.withHost host).macOf f.metadata n =
        macText env.H env.rx b.partialEncryption b.macOnlyEncrypted n := by
      intro n
      rw [Env.macOf_eq (env := env.withHost host) he.hasher, e2, e3]
      rfl
    have hmac' : env.C.decrypt f.metadata.mac.nonce (env.newKey i) f.metadata.mac.data f.metadata.lastModified.toBytes
        f.metadata.mac.tag = some (macText env.H env.rx b.partialEncryption b.macOnlyEncrypted m) := by
      rw [e4]
      have q := hmm m
      unfold Env.macOf at q
      rw [e2, e3] at q
      rw [← q]
      exact hmac
    have key1 : (∃ g, f.decrypt y.doc.F (env.withHost host) = .ok g) ↔
        macText env.H env.rx b.partialEncryption b.macOnlyEncrypted m =
        macText env.H env.rx b.partialEncryption b.macOnlyEncrypted m2 := by
      constructor
      · rintro ⟨g, hg⟩
        obtain ⟨k, n', n, a1, a2, a3, a4, _⟩ := decrypt_ok_iff.1 hg
        cases hkey host k a1
        rw [hread] at a2
        cases a2
        rw [hdec] at a3
        cases a3
        rw [hmm] at a4
        rw [show env.C.decrypt _ _ _ _ _ = _ from a4] at hmac'
        injection hmac' with q
        exact q.symm
      · intro hq
        refine ⟨{ map := z, metadata := decMetadata f.metadata ((env.withHost host).macOf f.metadata m2) }, ?_⟩
        refine decrypt_ok_iff.2 ⟨env.newKey i, m2', m2, hd, hread host, hdec host, ?_, z1, rfl⟩
        rw [hmm, ← hq]
        exact hmac'
    rw [key1]
    rcases hon : b.macOnlyEncrypted with _ | _ | _
    · simp only [reduceCtorEq, false_or, macText, Option.getD_none]
      exact ⟨fun hq => (hex_injective (utf8_injective hq)).symm, fun hq => by rw [hq]⟩
    · simp only [Option.some.injEq, Bool.false_eq_true, false_or, macText, Option.getD_some]
      exact ⟨fun hq => (hex_injective (utf8_injective hq)).symm, fun hq => by rw [hq]⟩
    · simp only [true_or, iff_true, macText, Option.getD_some]
      rw [macInput_eq_covered, macInput_eq_covered,
        show coveredBytes env.rx b.partialEncryption true (leaves m2) = _ from covered_same c3.2]

/-- **C08.** So without `mac_only_encrypted` a file with a wrongly encrypted value is refused, but for collisions of the
hash, if ciphertexts are as long as plaintexts. -/
theorem C08_refused (he : EnvLaws env) (hL : LengthPreserving env.C) (hb : x.doc.F.toInternal b.map = .ok m)
    (hm : Holds (docRep x) m) (hc : Canonical env.fl m) (h : b.encrypt env i = .ok (f, j))
    (hw : ∀ pv ∈ leaves m, ¬ WronglyPlain env.rx b.partialEncryption pv.1)
    (hwe : ∃ pv ∈ leaves m, WronglyEncrypted env.rx b.partialEncryption pv.1) (hon : b.macOnlyEncrypted ≠ some true)
    {y : Fmt} (hy : Holds (docRep y) m) {host : Host} {g : DecFile y.doc.F}
    (hg : f.decrypt y.doc.F (env.withHost host) = .ok g) : ∃ u w, Collide env.H u w := by
  obtain ⟨m2, h1, _, h3⟩ := C08_misread he hb hm hc h hw y hy
  obtain ⟨k, _, _, a1, _⟩ := decrypt_ok_iff.1 hg
  rcases (h3 host k a1).1 ⟨g, hg⟩ with h4 | h4
  · exact absurd h4 hon
  · refine ⟨_, _, ?_, h4⟩
    intro hq
    have := (covered_longer hL h1.2).2 hwe
    rw [macInput_eq_covered, macInput_eq_covered] at hq
    simp only [Bool.false_eq_true, if_false, List.nil_append] at hq
    rw [hq] at this
    exact Nat.lt_irrefl _ this

/-! ## Concrete files -/

/-- A JSON document with one key containing ':', and its settings. -/
def colonBuilder (key : Str) (cfg : PartialEncryption) (only : Option Bool) : Builder Format.json where
  map := [(key, .leaf (.str c!"pw"))]
  partialEncryption := some cfg
  macOnlyEncrypted := only
  ageKeyIds := [c!"pk1"]
  kmsKeyIds := []

/-- The map of that document. -/
def colonMap (key : Str) : RMap Value := [(key, .leaf (.string c!"pw"))]

theorem colonMap_holds (key : Str) (x : Fmt) : Holds (docRep x) (colonMap key) := by
  intro pv hpv
  rw [show leaves (colonMap key) = [([key], Value.string c!"pw")] from rfl] at hpv
  cases List.mem_singleton.1 hpv
  cases x
  · trivial
  · trivial
  · show Value.string c!"pw" ≠ .string c!"null"; decide

theorem colonMap_canonical (fl : FloatOps) (key : Str) : Canonical fl (colonMap key) := by
  intro pv hpv
  rw [show leaves (colonMap key) = [([key], Value.string c!"pw")] from rfl] at hpv
  cases List.mem_singleton.1 hpv
  trivial

theorem pw_not_encSyntax (C : Cipher) (e : EncValue) : ¬ EncSyntax C c!"pw" e := by
  rintro ⟨d, iv, tag, rest, h, _⟩
  simp at h

/-- **C08** (negative). The document `{"db:secret": "pw"}` with the setting `encrypted_suffix: ":secret"` is written with
its value in plaintext, to a file that nobody can decrypt. -/
theorem C08_colon_key_unreadable (he : EnvLaws env) (only : Option Bool) {f : EncFile Format.json}
    (h : (colonBuilder c!"db:secret" (.encryptedSuffix c!":secret") only).encrypt env i = .ok (f, j)) (host : Host)
    (Fo : Format) (g : DecFile Fo) : f.decrypt Fo (env.withHost host) ≠ .ok g := by
  refine C08_unreadable (x := .json) he (m := colonMap c!"db:secret") rfl (colonMap_holds _ .json) h
    (p := [c!"db:secret"]) (v := .string c!"pw") (List.mem_singleton.2 rfl) ⟨?_, ?_⟩ ?_ host Fo g
  · intro k hk
    cases List.mem_singleton.1 hk
    simp only [Matches]
    decide
  · intro hk
    exact hk _ (List.mem_singleton.2 rfl) (by simp only [Matches]; decide)
  · rintro t e ht
    cases ht
    exact pw_not_encSyntax env.C e

example : ∃ f j, (colonBuilder c!"db:secret" (.encryptedSuffix c!":secret") none).encrypt Toy.env 0 = .ok (f, j) ∧
    Toy.env.retrieveDataKey f.metadata = .ok (Toy.env.newKey 0) ∧
    f.map = [(c!"db:secret", .leaf (.str c!"pw"))] := by
  have hc : (match (colonBuilder c!"db:secret" (.encryptedSuffix c!":secret") none).encrypt Toy.env 0 with
      | .error _ => false
      | .ok (f, _) => (match Toy.env.retrieveDataKey f.metadata with
        | .ok d => decide (d = Toy.env.newKey 0)
        | .error _ => false) && (match f.map with
        | [(k, .leaf (.str t))] => decide (k = c!"db:secret" ∧ t = c!"pw")
        | _ => false)) = true := by decide +kernel
  cases hb : (colonBuilder c!"db:secret" (.encryptedSuffix c!":secret") none).encrypt Toy.env 0 with
  | error e => rw [hb] at hc; cases hc
  | ok r =>
    rw [hb] at hc
    simp only [Bool.and_eq_true] at hc
    obtain ⟨h1, h2⟩ := hc
    refine ⟨r.1, r.2, rfl, ?_, ?_⟩
    · split at h1
      · rename_i d hd
        rw [hd, of_decide_eq_true h1]
      · cases h1
    · split at h2
      · rename_i k t hk
        have := of_decide_eq_true h2
        rw [hk, this.1, this.2]
      · cases h2

/-- **C08** (negative). The document `{"db:plain": "pw"}` with the settings `unencrypted_suffix: ":plain"` and
`mac_only_encrypted: true` is decrypted wherever a data key is found, and the value is then the text of its encryption. -/
theorem C08_silently_corrupted (he : EnvLaws env) {f : EncFile Format.json}
    (h : (colonBuilder c!"db:plain" (.unencryptedSuffix c!":plain") (some true)).encrypt env i = .ok (f, j)) (host : Host)
    {d : Bytes} (hd : (env.withHost host).retrieveDataKey f.metadata = .ok d) :
    ∃ (g : DecFile Format.json) (e : EncValue), f.decrypt Format.json (env.withHost host) = .ok g ∧
      Format.json.toInternal g.map = .ok [(c!"db:plain", .leaf (.string (encText env.C e)))] ∧
      Seals env.C (env.newKey i) [c!"db:plain"] (.string c!"pw") e := by
  have hpl : ¬ Plain env.rx (some (.unencryptedSuffix c!":plain")) ([c!"db:plain"].map lastPart) := by
    rintro ⟨k, hk, hk2⟩
    cases List.mem_singleton.1 hk
    revert hk2
    simp only [Matches]
    decide
  have hpl2 : Plain env.rx (some (.unencryptedSuffix c!":plain")) [c!"db:plain"] :=
    ⟨_, List.mem_singleton.2 rfl, by simp only [Matches]; decide⟩
  obtain ⟨m2, h1, h2, h3⟩ := C08_misread (x := .json) he (m := colonMap c!"db:plain") rfl (colonMap_holds _ .json)
    (colonMap_canonical _ _) h (by
      intro pv hpv hw
      cases List.mem_singleton.1 hpv
      exact hw.2 hpl2) .json (colonMap_holds _ .json)
  obtain ⟨g, hg⟩ := (h3 host d hd).2 (.inl rfl)
  have hz := h1.2
  rw [show leaves (colonMap c!"db:plain") = [([c!"db:plain"], Value.string c!"pw")] from rfl] at hz
  cases hl : leaves m2 with
  | nil => rw [hl] at hz; cases hz
  | cons a r =>
    rw [hl] at hz
    cases hz with
    | cons ha hr =>
      cases hr
      obtain ⟨q, w⟩ := a
      obtain ⟨e1, e2⟩ := ha
      simp only at e1 e2
      subst e1
      rcases e2 with ⟨hn, _⟩ | ⟨_, e, hs, rfl⟩
      · exact absurd ⟨hpl, hpl2⟩ hn
      · refine ⟨g, e, hg, ?_, hs⟩
        rw [show Format.json.toInternal g.map = .ok m2 from h2 host g hg]
        refine congrArg _ (C09_shape_and_leaves _ _ ?_ ?_)
        · rw [h1.1]; rfl
        · rw [hl]; rfl

example : ∃ f j, (colonBuilder c!"db:plain" (.unencryptedSuffix c!":plain") (some true)).encrypt Toy.env 0 = .ok (f, j) ∧
    Toy.env.retrieveDataKey f.metadata = .ok (Toy.env.newKey 0) := by
  have hc : (match (colonBuilder c!"db:plain" (.unencryptedSuffix c!":plain") (some true)).encrypt Toy.env 0 with
      | .error _ => false
      | .ok (f, _) => match Toy.env.retrieveDataKey f.metadata with
        | .ok d => decide (d = Toy.env.newKey 0)
        | .error _ => false) = true := by decide +kernel
  cases hb : (colonBuilder c!"db:plain" (.unencryptedSuffix c!":plain") (some true)).encrypt Toy.env 0 with
  | error e => rw [hb] at hc; cases hc
  | ok r =>
    rw [hb] at hc
    refine ⟨r.1, r.2, rfl, ?_⟩
    simp only at hc
    split at hc
    · rename_i d hd
      rw [hd, of_decide_eq_true hc]
    · cases hc

/-- The hypotheses of `C08_refused` are met: the same document without `mac_only_encrypted`. -/
example : LengthPreserving Toy.env.C ∧
    (∀ pv ∈ leaves (colonMap c!"db:plain"), ¬ WronglyPlain Toy.env.rx (some (.unencryptedSuffix c!":plain")) pv.1) ∧
    (∃ pv ∈ leaves (colonMap c!"db:plain"), WronglyEncrypted Toy.env.rx (some (.unencryptedSuffix c!":plain")) pv.1) ∧
    (match (colonBuilder c!"db:plain" (.unencryptedSuffix c!":plain") none).encrypt Toy.env 0 with
      | .error _ => false
      | .ok (f, _) => match Toy.env.retrieveDataKey f.metadata, f.decrypt Format.json Toy.env with
        | .ok _, .error _ => true
        | _, _ => false) = true := by
  have hpl2 : Plain Toy.env.rx (some (.unencryptedSuffix c!":plain")) [c!"db:plain"] :=
    ⟨_, List.mem_singleton.2 rfl, by simp only [Matches]; decide⟩
  refine ⟨toy_lengthPreserving, ?_, ⟨_, List.mem_singleton.2 rfl, ?_, hpl2⟩, by decide +kernel⟩
  · intro pv hpv hw
    cases List.mem_singleton.1 hpv
    exact hw.2 hpl2
  · rintro ⟨k, hk, hk2⟩
    cases List.mem_singleton.1 hk
    revert hk2
    simp only [Matches]
    decide

end Rops.Props
