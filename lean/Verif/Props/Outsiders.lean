import Verif.Props.Leakage
import Verif.Props.Files
import Verif.Lemmas.CliRuns
import Verif.Lemmas.ToyCli
/-!
# What people without private keys learn and do

C56 what `rops encrypt` shows, C57 forged files.
-/

namespace Rops.Props
open Spec

/-! ## C56 -/

theorem inputText_unique {P : Proc} {file : Option Str} {s s' : Str} (h : InputText P file s) (h' : InputText P file s') :
    s = s' := by
  rcases h with ⟨p, b, rfl, h1, h2, h3⟩ | ⟨b, rfl, h1, h2⟩
  · rcases h' with ⟨p', b', h0, g1, g2, g3⟩ | ⟨b', h0, _, _⟩
    · cases h0
      rw [h2] at g2
      cases g2
      rw [h3] at g3
      exact Option.some.inj g3
    · cases h0
  · rcases h' with ⟨p', b', h0, _⟩ | ⟨b', _, g1, g2⟩
    · cases h0
    · rw [h1] at g1
      cases g1
      rw [h2] at g2
      exact Option.some.inj g2

/-- **C56.** Two runs of `rops encrypt` that find, in the file or on standard input, documents
that differ only in values to be encrypted, with the same types and byte counts, print and
write exactly the same. -/
theorem C56_encrypt {P Q : Proc} (hPQ : Q = { P with file := Q.file, stdin := Q.stdin }) {l : EncryptLine} {i : Nat}
    {es : List Event} (h : P.run (.encrypt l) i = (es, .ok ())) {config : Config}
    (hc : P.retrieveConfig l.input.config = .ok config) (hc' : Q.retrieveConfig l.input.config = .ok config)
    {x : Fmt} (hx : getFormat l.input.file l.input.format = .ok x) {s s' : Str}
    (hs : InputText P l.input.file s) (hs' : InputText Q l.input.file s') {d d' : x.doc.F.Map} {m n : RMap Value}
    (hd : (P.T x).parse s = some d) (hd' : (P.T x).parse s' = some d')
    (hm : x.doc.F.toInternal d = .ok m) (hn : x.doc.F.toInternal d' = .ok n)
    (hC : Opaque P.env.C (P.env.newKey i)) (hH : FixedSize P.env.H)
    (hk : l.setting.or ((ruleFor P.env.rx config l.input.file).bind CreationRule.partialEncryption) ≠ none →
      KeysAgree (l.setting.or ((ruleFor P.env.rx config l.input.file).bind CreationRule.partialEncryption)) m)
    (hmn : Spec.Alike P.env.rx (l.setting.or ((ruleFor P.env.rx config l.input.file).bind CreationRule.partialEncryption)) m n) :
    Q.run (.encrypt l) i = (es, .ok ()) := by
  obtain ⟨h1, h2, config1, x1, s1, d1, f, j, h3, h4, h5, h6, h7, h8⟩ := run_encrypt_ok.1 h
  rw [hc] at h3
  cases h3
  rw [hx] at h4
  cases h4
  cases inputText_unique hs h5
  rw [hd] at h6
  cases h6
  have hT : Q.T = P.T := by rw [hPQ]
  have hE : Q.env = P.env := by rw [hPQ]
  have hS : Q.saves = P.saves := by rw [hPQ]
  have hO : Q.stdout = P.stdout := by rw [hPQ]
  refine run_encrypt_ok.2 ⟨h1, h2, config, x, s', d', f, j, hc', hx, hs', by rw [hT]; exact hd', ?_, ?_⟩
  · rw [hE, ← h7]
    exact (C47_created P.env _ _ i m n hm hn rfl hC hH hk hmn).symm
  · rw [hT, hE]
    unfold Delivered at h8 ⊢
    rw [hS, hO]
    exact h8

/-- Example: a process with the opaque cipher, and a file with this content. -/
def zeroProc (content : Str) : Proc := { Toy.proc Toy.rule content [] with env := zeroEnv }

/-- Example: `Toy.small` with another secret. -/
def smallOther : DocFormat.json.F.Map := [(c!"a", .leaf (.str c!"z")), (c!"b_plain", .leaf (.bool true))]

/-- The secrets "x" and "z" give the same run. -/
example : ∃ es, (zeroProc (Toy.mapText Toy.small)).run (.encrypt Toy.encryptLine) 0 = (es, .ok ()) ∧ es ≠ [] ∧
    (zeroProc (Toy.mapText smallOther)).run (.encrypt Toy.encryptLine) 0 = (es, .ok ()) := by
  have hb : (match Toy.smallBuilder.encrypt zeroEnv 0 with | .ok _ => true | .error _ => false) = true := by decide +kernel
  cases h : Toy.smallBuilder.encrypt zeroEnv 0 with
  | error e => rw [h] at hb; cases hb
  | ok r =>
    obtain ⟨f, j⟩ := r
    have hcfg : ∀ s, (zeroProc s).retrieveConfig none = .ok [Toy.creationRule] := by
      have h0 : (zeroProc []).readConfig c!"/.rops.toml" = .ok [Toy.creationRule] := by decide +kernel
      exact fun _ => h0
    have hin : ∀ s, InputText (zeroProc s) (some c!"a.json") s := fun s => .inl ⟨_, _, rfl, rfl, rfl, utf8?_utf8 s⟩
    have hx : getFormat Toy.encryptLine.input.file Toy.encryptLine.input.format = .ok .json := by decide +kernel
    have hr : (zeroProc (Toy.mapText Toy.small)).run (.encrypt Toy.encryptLine) 0 =
        ([.write c!"a.json" (utf8 (EncFile.toText Toy.jsonText zeroEnv.C f)) .done], .ok ()) :=
      run_encrypt_ok.2 ⟨by decide, by decide, [Toy.creationRule], .json, Toy.mapText Toy.small, Toy.small, f, j, hcfg _,
        hx, hin _, Toy.jsonText_laws.parse_render Toy.small trivial, h, .inl ⟨rfl, _, rfl, rfl, rfl⟩⟩
    refine ⟨_, hr, by simp, C56_encrypt (Q := zeroProc (Toy.mapText smallOther)) rfl hr (hcfg _) (hcfg _) hx (hin _) (hin _)
      (Toy.jsonText_laws.parse_render Toy.small trivial) (Toy.jsonText_laws.parse_render smallOther trivial)
      (m := [(c!"a", .leaf (.string c!"x")), (c!"b_plain", .leaf (.boolean true))])
      (n := [(c!"a", .leaf (.string c!"z")), (c!"b_plain", .leaf (.boolean true))]) rfl rfl
      (zeroCipher_opaque _) (fun _ _ => rfl) (fun _ => .inl (by unfold NoColon; decide)) ⟨rfl, ?_⟩⟩
    refine .cons ⟨rfl, rfl, rfl, fun h => absurd h (by decide)⟩ (.cons ⟨rfl, rfl, rfl, fun _ => rfl⟩ .nil)

/-! ## C57 -/

theorem addKeys_age_withHost (env : Env) (host : Host) (key : Bytes) (ids : List (Kind.Id .age)) (im : IntegrationMetadata)
    (i : Nat) : (env.withHost host).addKeys .age key ids im i = env.addKeys .age key ids im i := by
  induction ids generalizing im i with
  | nil => rfl
  | cons id r ih =>
    have hn : (env.withHost host).newUnit .age id key i = env.newUnit .age id key i := rfl
    simp only [KeyEnv.addKeys, hn]
    split
    · rfl
    · exact ih _ _

/-- **C57.** Making a file for age recipients needs no private key: what is made does not
depend on the private keys of the process. -/
theorem C57_no_private_key {F : Format} (env : Env) (b : Builder F) (hk : b.kmsKeyIds = []) (i : Nat) (host : Host) :
    b.encrypt (env.withHost host) i = b.encrypt env i := by
  have h : (env.withHost host).intoMetadata b.ageKeyIds b.kmsKeyIds = env.intoMetadata b.ageKeyIds b.kmsKeyIds := by
    funext key i
    unfold KeyEnv.intoMetadata
    rw [hk, addKeys_age_withHost]
    rfl
  unfold Builder.encrypt
  rw [h]
  rfl

/-- **C57.** Whoever sees an encrypted file, and with it the age public keys of its recipients,
can replace it, without any private key, by a file for the same recipients with a content of
their choice, which all of them decrypt without error. -/
theorem C57_forged {env : Env} (he : EnvLaws env) {F Fo : Format} {rep rep' : Value → Prop} (hF : Format.Lawful F rep)
    (hFo : Format.Lawful Fo rep') (f : EncFile F) (map : F.Map) (m : RMap Value) (hm : F.toInternal map = .ok m)
    (setting : Option PartialEncryption) (hfits : Fits env.fl rep setting m) (hm' : Holds rep' m) (only : Option Bool)
    (forger : Host) (i : Nat) (f2 : EncFile F) (j : Nat)
    (h : Builder.encrypt (env.withHost forger)
      { map, partialEncryption := setting, macOnlyEncrypted := only,
        ageKeyIds := keyIds f.metadata.integration .age, kmsKeyIds := [] } i = .ok (f2, j)) :
    (∀ id, id ∈ keyIds f2.metadata.integration .age ↔ id ∈ keyIds f.metadata.integration .age) ∧
    ∀ (host : Host) (ks : List env.A.Identity) (k : env.A.Identity),
      retrievePrivateKeys (Age.parsePrivateKey env.A) host c!"age" = .ok ks → k ∈ ks →
      env.A.toPublic k ∈ keyIds f.metadata.integration .age →
      ∃ g, f2.decrypt Fo (env.withHost host) = .ok g ∧ Fo.toInternal g.map = .ok m := by
  rw [C57_no_private_key _ _ rfl] at h
  exact ⟨(C32_units _ i f2 j h).2.2.1, fun host ks k hr hks hk =>
    C02_any_recipient he hF hFo _ m hm hfits hm' i f2 j h host ks hr k hks hk⟩

/-- The file of `Toy.builder` replaced by somebody without private keys. -/
example : ∃ f j f2 j2, Toy.builder.encrypt Toy.env 0 = .ok (f, j) ∧
    Builder.encrypt (F := Format.json) (Toy.env.withHost (Toy.host .notPresent .notPresent))
      { map := otherDoc, partialEncryption := none, macOnlyEncrypted := none,
        ageKeyIds := keyIds f.metadata.integration .age, kmsKeyIds := [] } 7 = .ok (f2, j2) := by
  have hc : (match Toy.builder.encrypt Toy.env 0 with
    | .error _ => false
    | .ok (f, _) => match Builder.encrypt (F := Format.json) (Toy.env.withHost (Toy.host .notPresent .notPresent))
        { map := otherDoc, partialEncryption := none, macOnlyEncrypted := none,
          ageKeyIds := keyIds f.metadata.integration .age, kmsKeyIds := [] } 7 with
      | .error _ => false
      | .ok _ => true) = true := by decide +kernel
  split at hc
  · cases hc
  rename_i f j h1
  split at hc
  · cases hc
  rename_i r h2
  exact ⟨f, j, r.1, r.2, h1, h2⟩

end Rops.Props
