import Verif.Props.Success
import Verif.Props.Edits
/-!
# When commands that read encrypted files succeed

C67: which keys a process needs for `decrypt` and `edit`.
-/

namespace Rops.Props
open Rops Spec

/-- **C67.** `rops decrypt` on a file succeeds exactly if the flags are acceptable and the process has
a private key for one of the recipients, however many others there are. (The private keys can be
read and KMS does not refuse what it encrypted; the configuration, the format and the text are
found and the result can be delivered.) -/
theorem C67_decrypt_iff {P : Proc} (he : EnvLaws P.env) {l : PlaceLine} {config : Config}
    (hc : P.retrieveConfig l.input.config = .ok config) {x : Fmt} (hx : getFormat l.input.file l.input.format = .ok x)
    {s : Str} (hs : InputText P l.input.file s) (hd : Deliverable P l.inPlace l.input.file)
    {f : EncFile x.doc.F} (hf : EncFile.ofText (P.T x) P.O P.env.C s = some f)
    {key : Bytes} {m : RMap Value} {m' : RMap EncLeaf} (hh : Holding P.env (docRep x) f key m m')
    (hage : keyIds f.metadata.integration .age ≠ [] →
      ∃ ks, retrievePrivateKeys (Age.parsePrivateKey P.env.A) P.env.host c!"age" = .ok ks)
    (hkms : ∀ id ∈ keyIds f.metadata.integration .kms,
      (∃ ps, retrievePrivateKeys AwsPrivateKey.parse P.env.host c!"aws_kms" = .ok ps) ∧ KmsOpens P.env.toKeyEnv id) (i : Nat) :
    (∃ es, P.run (.decrypt l) i = (es, .ok ())) ↔
      ¬ (l.inPlace = true ∧ l.input.file = none) ∧
      ∃ k id, id ∈ keyIds f.metadata.integration k ∧ Owns P.env.toKeyEnv k id := by
  have hown := retrieve_iff_owns he hh.key_length hh.units hage hkms
  constructor
  · rintro ⟨es, h⟩
    obtain ⟨h1, _, x', s', f', g, hx', hs', hf', hg, _⟩ := run_decrypt_ok.1 h
    rw [hx] at hx'; cases hx'
    cases inputText_unique hs hs'
    rw [hf] at hf'; cases hf'
    obtain ⟨d, _, _, h2, _⟩ := decrypt_ok_iff.1 hg
    exact ⟨h1, hown.1 ⟨d, decryptAny_of_retrieve.1 h2⟩⟩
  · rintro ⟨h1, h2⟩
    obtain ⟨d, hr⟩ := hown.2 h2
    obtain ⟨g, hg, _⟩ := decrypt_of_holding (Fo := x.doc.F) he (docRep_lawful x) hh hh.fits.holds (decryptAny_of_retrieve.2 hr)
    obtain ⟨es, hes⟩ := delivered_exists hd h1 ((P.T x).render g.map)
    exact ⟨es, run_decrypt_ok.2 ⟨h1, ⟨config, hc⟩, x, s, f, g, hx, hs, hf, hg, hes⟩⟩

/-- **C67.** `rops edit` of a file, with an editor that leaves a document that the file can hold,
succeeds exactly if the process has a private key for one of the recipients. Encrypting the edited
document needs nothing more: no access to the other recipients, also not to those in KMS. -/
theorem C67_edit_iff {P : Proc} (he : EnvLaws P.env) (hC : P.env.C.Total) {a : InputArgs} {config : Config}
    (hc : P.retrieveConfig a.config = .ok config) {x : Fmt} (hx : getFormat a.file a.format = .ok x)
    {s : Str} (hs : InputText P a.file s)
    {f : EncFile x.doc.F} (hf : EncFile.ofText (P.T x) P.O P.env.C s = some f)
    {key : Bytes} {m : RMap Value} {m' : RMap EncLeaf} (hh : Holding P.env (docRep x) f key m m')
    {t : Str} (ht : P.temp = some t) (hw : ∀ b, P.saves t b = .done) (hfound : EditorReady P)
    {edited : x.doc.F.Map} (hed : Edited (P.T x).parse edited P.editor) {m1 : RMap Value}
    (ho : x.doc.F.toInternal edited = .ok m1) (hfit : Fits P.env.fl (docRep x) f.metadata.partialEncryption m1)
    (hout : ∀ q, a.file = some q → ∀ b, P.saves q b = .done) (hpipe : a.file = none → P.stdout = none)
    (hage : keyIds f.metadata.integration .age ≠ [] →
      ∃ ks, retrievePrivateKeys (Age.parsePrivateKey P.env.A) P.env.host c!"age" = .ok ks)
    (hkms : ∀ id ∈ keyIds f.metadata.integration .kms,
      (∃ ps, retrievePrivateKeys AwsPrivateKey.parse P.env.host c!"aws_kms" = .ok ps) ∧ KmsOpens P.env.toKeyEnv id) (i : Nat) :
    (∃ es, P.run (.edit a) i = (es, .ok ())) ↔ ∃ k id, id ∈ keyIds f.metadata.integration k ∧ Owns P.env.toKeyEnv k id := by
  have hown := retrieve_iff_owns he hh.key_length hh.units hage hkms
  constructor
  · rintro ⟨es, h⟩
    obtain ⟨_, x', s', f', g, p, hx', hs', hf', hg, _⟩ := run_edit_ok.1 h
    rw [hx] at hx'; cases hx'
    cases inputText_unique hs hs'
    rw [hf] at hf'; cases hf'
    obtain ⟨d, _, _, h2, _⟩ := decryptAndSave_ok_iff.1 hg
    exact hown.1 ⟨d, decryptAny_of_retrieve.1 h2⟩
  · intro h
    obtain ⟨d, hr⟩ := hown.2 h
    exact C64_succeeds he hC hc hx hs hf hh (decryptAny_of_retrieve.2 hr) ht hw hfound hed ho hfit hout hpipe i

/-- A process with another private key than `Toy.proc`. -/
def strangerProc (content : Str) (editor : List Attempt) : Proc :=
  { Toy.proc Toy.rule content editor with env := Toy.env.withHost (Toy.host (.value c!"k9") .notPresent) }

-- `rops decrypt -i a.json` succeeds for the owner of k1 and fails for the owner of k9, who is no recipient
example : ∃ (f : EncFile Format.json),
    (∃ es, (Toy.proc Toy.rule (EncFile.toText Toy.jsonText Toy.env.C f) []).run (.decrypt Toy.placeLine) 50 = (es, .ok ())) ∧
    ¬ ∃ es, (strangerProc (EncFile.toText Toy.jsonText Toy.env.C f) []).run (.decrypt Toy.placeLine) 50 = (es, .ok ()) := by
  obtain ⟨f, j, m', hb, _, h1, hh, _, _⟩ := Toy.encrypted []
  obtain ⟨_, _, _, im, _, _, _, h3, _, _, h6⟩ := Builder.encrypt_ok hb
  have ha : keyIds f.metadata.integration .age = [c!"pk2", c!"pk1"] := by
    rw [h6, (intoMetadata_ok h3).2.2.1]; rfl
  have hk : keyIds f.metadata.integration .kms = [] := by
    rw [h6, (intoMetadata_ok h3).2.2.2.1]; rfl
  refine ⟨f, ?_, ?_⟩
  · exact (C67_decrypt_iff (P := Toy.proc Toy.rule _ []) (l := Toy.placeLine) (x := .json) Toy.env_laws (Toy.proc_config _ _)
      (by decide +kernel) (Toy.proc_input _ _ _) (fun _ _ _ => rfl) h1 hh (fun _ => ⟨[c!"k1"], rfl⟩)
      (fun id h => by rw [hk] at h; cases h) 50).2
      ⟨by decide, .age, c!"pk1", by rw [ha]; simp, [c!"k1"], rfl, c!"k1", .head _, rfl⟩
  · intro h
    obtain ⟨_, k, id, hid, ho⟩ := (C67_decrypt_iff (P := strangerProc _ []) (l := Toy.placeLine) (x := .json) (Toy.env_laws.withHost _)
      ((retrieveConfig_files (P := Toy.proc Toy.rule (EncFile.toText Toy.jsonText Toy.env.C f) []) rfl rfl rfl rfl (fun _ _ => rfl)
        (fun _ _ => rfl) (fun _ _ _ _ => rfl)).trans (Toy.proc_config _ _))
      (by decide +kernel) (.inl ⟨_, _, rfl, rfl, rfl, utf8?_utf8 _⟩) (fun _ _ _ => rfl) h1 (hh.withHost _) (fun _ => ⟨[c!"k9"], rfl⟩)
      (fun id h => by rw [hk] at h; cases h) 50).1 h
    cases k with
    | kms => rw [hk] at hid; cases hid
    | age =>
      obtain ⟨ks, hks, s, hs, e⟩ := ho
      have h0 : retrievePrivateKeys (Age.parsePrivateKey Toy.age) (Toy.host (.value c!"k9") .notPresent) c!"age" = .ok [c!"k9"] := rfl
      have h1 : ks = [c!"k9"] := Except.ok.inj (hks.symm.trans h0)
      rw [h1] at hs
      have h2 : s = c!"k9" := List.mem_singleton.1 hs
      rw [h2] at e
      have e' : c!"pk9" = id := e
      rw [ha, ← e'] at hid
      revert hid
      decide

-- `rops edit a.json` with another secret left by the editor: the same
example : ∃ (f : EncFile Format.json),
    (∃ es, (Toy.proc Toy.rule (EncFile.toText Toy.jsonText Toy.env.C f)
        [.left (.data (utf8 c!"{")) .key, .left (.data (utf8 (Toy.mapText changed))) .key]).run (.edit Toy.input) 50 = (es, .ok ())) ∧
    ¬ ∃ es, (strangerProc (EncFile.toText Toy.jsonText Toy.env.C f)
        [.left (.data (utf8 c!"{")) .key, .left (.data (utf8 (Toy.mapText changed))) .key]).run (.edit Toy.input) 50 = (es, .ok ()) := by
  let ed : List Attempt := [.left (.data (utf8 c!"{")) .key, .left (.data (utf8 (Toy.mapText changed))) .key]
  obtain ⟨f, j, m', hb, _, h1, hh, _, _⟩ := Toy.encrypted ed
  obtain ⟨_, _, _, im, _, _, _, h3, _, _, h6⟩ := Builder.encrypt_ok hb
  have ha : keyIds f.metadata.integration .age = [c!"pk2", c!"pk1"] := by
    rw [h6, (intoMetadata_ok h3).2.2.1]; rfl
  have hk : keyIds f.metadata.integration .kms = [] := by
    rw [h6, (intoMetadata_ok h3).2.2.2.1]; rfl
  have hx : getFormat Toy.input.file Toy.input.format = .ok .json := by decide +kernel
  have ho : Format.json.toInternal changed = .ok [(c!"a", .leaf (.string c!"y"))] := rfl
  have hfit : Fits Toy.env.fl jsonRep f.metadata.partialEncryption [(c!"a", .leaf (.string c!"y"))] := by
    have hl : leaves ([(c!"a", .leaf (.string c!"y"))] : RMap Value) = [([c!"a"], .string c!"y")] := rfl
    refine ⟨?_, ?_, fun _ => ?_⟩
    · unfold Canonical; rw [hl]; intro pv h; rw [List.mem_singleton] at h; subst h; trivial
    · unfold Holds; rw [hl]; intro pv h; rw [List.mem_singleton] at h; subst h; trivial
    · exact .inl (by unfold NoColon; decide)
  refine ⟨f, ?_, ?_⟩
  · exact (C67_edit_iff (P := Toy.proc Toy.rule _ ed) (a := Toy.input) (x := .json) Toy.env_laws Toy.cipher_total
      (Toy.proc_config _ _) hx (Toy.proc_input _ _ _) h1 hh (t := c!"/tmp/t") rfl (fun _ => rfl) (Toy.proc_editor _ _ _)
      (leftBehind changed) ho hfit (fun _ _ _ => rfl) (fun _ => rfl) (fun _ => ⟨[c!"k1"], rfl⟩)
      (fun id h => by rw [hk] at h; cases h) 50).2
      ⟨.age, c!"pk1", by rw [ha]; simp, [c!"k1"], rfl, c!"k1", .head _, rfl⟩
  · intro h
    obtain ⟨k, id, hid, ho⟩ := (C67_edit_iff (P := strangerProc _ ed) (a := Toy.input) (x := .json) (Toy.env_laws.withHost _)
      Toy.cipher_total
      ((retrieveConfig_files (P := Toy.proc Toy.rule (EncFile.toText Toy.jsonText Toy.env.C f) ed) rfl rfl rfl rfl (fun _ _ => rfl)
        (fun _ _ => rfl) (fun _ _ _ _ => rfl)).trans (Toy.proc_config _ _))
      hx (.inl ⟨_, _, rfl, rfl, rfl, utf8?_utf8 _⟩) h1 (hh.withHost _) (t := c!"/tmp/t") rfl (fun _ => rfl)
      (Toy.proc_editor Toy.rule (EncFile.toText Toy.jsonText Toy.env.C f) ed) (leftBehind changed) ho hfit (fun _ _ _ => rfl) (fun _ => rfl) (fun _ => ⟨[c!"k9"], rfl⟩)
      (fun id h => by rw [hk] at h; cases h) 50).1 h
    cases k with
    | kms => rw [hk] at hid; cases hid
    | age =>
      obtain ⟨ks, hks, s, hs, e⟩ := ho
      have h0 : retrievePrivateKeys (Age.parsePrivateKey Toy.age) (Toy.host (.value c!"k9") .notPresent) c!"age" = .ok [c!"k9"] := rfl
      have h1 : ks = [c!"k9"] := Except.ok.inj (hks.symm.trans h0)
      rw [h1] at hs
      have h2 : s = c!"k9" := List.mem_singleton.1 hs
      rw [h2] at e
      have e' : c!"pk9" = id := e
      rw [ha, ← e'] at hid
      revert hid
      decide

end Rops.Props
