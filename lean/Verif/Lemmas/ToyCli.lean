import Verif.Spec.ToyCli
import Verif.Lemmas.CliRuns
import Verif.Props.Documents
/-! Facts about the process used in examples. -/

namespace Rops.Toy
open Rops Spec

theorem fresh (rule : List (Str × Toml)) (content : Str) (ed : List Attempt) : FreshTemp (proc rule content ed) := by
  rintro t ⟨⟩
  rfl

theorem proc_config (content : Str) (ed : List Attempt) : (proc rule content ed).retrieveConfig none = .ok [creationRule] := by
  have h : (proc rule [] []).readConfig c!"/.rops.toml" = .ok [creationRule] := by decide +kernel
  exact h

theorem proc_input (rule : List (Str × Toml)) (content : Str) (ed : List Attempt) :
    InputText (proc rule content ed) (some c!"a.json") content :=
  .inl ⟨_, _, rfl, rfl, rfl, utf8?_utf8 content⟩

theorem proc_editor (rule : List (Str × Toml)) (content : Str) (ed : List Attempt) : EditorReady (proc rule content ed) :=
  ⟨.inl ⟨_, c!"ed", c!"ed", [], rfl, utf8?_utf8 _, rfl⟩, rfl⟩

theorem small_fits : Fits env.fl jsonRep (some (.unencryptedSuffix c!"_plain"))
    [(c!"a", .leaf (.string c!"x")), (c!"b_plain", .leaf (.boolean true))] := by
  have hl : leaves [(c!"a", .leaf (.string c!"x")), (c!"b_plain", .leaf (.boolean true))] =
    [([c!"a"], Value.string c!"x"), ([c!"b_plain"], .boolean true)] := rfl
  refine ⟨?_, ?_, fun _ => .inl (by unfold NoColon; decide)⟩
  · unfold Canonical
    rw [hl]
    intro pv h
    simp only [List.mem_cons, List.not_mem_nil, or_false] at h
    rcases h with rfl | rfl <;> trivial
  · unfold Holds
    rw [hl]
    intro pv h
    simp only [List.mem_cons, List.not_mem_nil, or_false] at h
    rcases h with rfl | rfl <;> trivial

theorem smallBuilder_ok : ∃ f j, smallBuilder.encrypt env 0 = .ok (f, j) := by
  have h : (match smallBuilder.encrypt env 0 with | .ok _ => true | .error _ => false) = true := by decide +kernel
  cases hb : smallBuilder.encrypt env 0 with
  | error e => rw [hb] at h; cases h
  | ok r => exact ⟨r.1, r.2, rfl⟩

/-- What `encryptLine` writes. -/
theorem encrypted (ed : List Attempt) : ∃ (f : EncFile Format.json) (j : Nat) (m' : RMap EncLeaf),
    smallBuilder.encrypt env 0 = .ok (f, j) ∧
    (proc rule (mapText small) ed).run (.encrypt encryptLine) 0 =
      ([.write c!"a.json" (utf8 (EncFile.toText jsonText env.C f)) .done], .ok ()) ∧
    EncFile.ofText jsonText docOps env.C (EncFile.toText jsonText env.C f) = some f ∧
    Holding env jsonRep f (env.newKey 0) [(c!"a", .leaf (.string c!"x")), (c!"b_plain", .leaf (.boolean true))] m' ∧
    EncWritable docOps env.C f.metadata ∧ env.retrieveDataKey f.metadata = .ok (env.newKey 0) := by
  obtain ⟨f, j, h⟩ := smallBuilder_ok
  obtain ⟨m', _, _, hh, _⟩ := holding_of_builder (b := smallBuilder) env_laws Format.json_lawful rfl small_fits h
  have hw : EncWritable docOps env.C f.metadata :=
    Props.C43_created (O := docOps) (b := smallBuilder) env_laws env_clock Format.json_lawful rfl small_fits
      (fun _ _ => rfl) (fun _ h => nomatch h) (fun _ h => by cases h; rfl) h
  have hr := retrieve_of_identity (k := c!"k1") (ks := [c!"k1"]) env_laws hh.key_length hh.units rfl (.head _) (by
    obtain ⟨_, _, _, im, _, _, _, h3, _, _, h6⟩ := Builder.encrypt_ok h
    rw [h6, (intoMetadata_ok h3).2.2.1]; decide)
  refine ⟨f, j, m', h, ?_, ?_, hh, hw, hr⟩
  · refine run_encrypt_ok.2 ⟨by decide, by decide, [creationRule], .json, mapText small, small, f, j, proc_config _ _,
      by decide +kernel, proc_input _ _ _, jsonText_laws.parse_render small trivial, h, .inl ⟨rfl, _, rfl, rfl, rfl⟩⟩
  · rw [Props.C44_json_encryption docOps_laws jsonText_laws (f := f) hh hw trivial]
    rfl

/-- Its plaintext. -/
theorem decrypted {f : EncFile Format.json} {m' : RMap EncLeaf}
    (hh : Holding env jsonRep f (env.newKey 0) [(c!"a", .leaf (.string c!"x")), (c!"b_plain", .leaf (.boolean true))] m')
    (hr : env.retrieveDataKey f.metadata = .ok (env.newKey 0)) :
    ∃ (g : DecFile Format.json) (p : SavedParameters), f.decrypt Format.json env = .ok g ∧ g.map = small ∧
      f.decryptAndSave Format.json env = .ok (g, p) := by
  obtain ⟨g, h1, h2, _, h4⟩ := decrypt_of_holding (Fo := Format.json) env_laws Format.json_lawful hh hh.fits.holds hr
  refine ⟨g, _, h1, ?_, h4⟩
  obtain ⟨d, mm, m, h5, h6, h7, h8, h9, h10⟩ := decrypt_ok_iff.1 h1
  have hm : Format.json.toInternal g.map = .ok _ := h2.read
  have e : (env.decEnv d) = env.decEnv (env.newKey 0) := by rw [hr] at h5; cases h5; rfl
  have hd : RMap.decrypt (env.decEnv (env.newKey 0)) m' = .ok _ := decrypt_of_sealed env_laws.cipher hh.fits.canonical hh.sealed
  rw [hh.read] at h6
  cases h6
  rw [e, hd] at h7
  cases h7
  have : Format.json.ofInternal [(c!"a", .leaf (.string c!"x")), (c!"b_plain", .leaf (.boolean true))] = some small := rfl
  rw [this] at h9
  exact (Option.some.inj h9).symm

/-- The builder that `rule` makes when the file is refreshed. -/
def refreshBuilder : Builder Format.json where
  map := small
  partialEncryption := some (.unencryptedSuffix c!"_plain")
  macOnlyEncrypted := some true
  ageKeyIds := [c!"pk1"]
  kmsKeyIds := []

theorem refreshBuilder_ok : ∃ f j, refreshBuilder.encrypt env 100 = .ok (f, j) := by
  have h : (match refreshBuilder.encrypt env 100 with | .ok _ => true | .error _ => false) = true := by decide +kernel
  cases hb : refreshBuilder.encrypt env 100 with
  | error e => rw [hb] at h; cases h
  | ok r => exact ⟨r.1, r.2, rfl⟩

/-- What `rops refresh` then writes. -/
theorem refreshed : ∃ (f : EncFile Format.json) (m' : RMap EncLeaf) (f' : EncFile Format.json) (j : Nat),
    EncFile.ofText jsonText docOps env.C (EncFile.toText jsonText env.C f) = some f ∧
    Holding env jsonRep f (env.newKey 0) [(c!"a", .leaf (.string c!"x")), (c!"b_plain", .leaf (.boolean true))] m' ∧
    ¬ Describes creationRule f.metadata ∧ refreshBuilder.encrypt env 100 = .ok (f', j) ∧
    (proc rule (EncFile.toText jsonText env.C f) []).run (.refresh placeLine) 100 =
      ([.write c!"a.json" (utf8 (EncFile.toText jsonText env.C f')) .done], .ok ()) := by
  obtain ⟨f, _, m', hb, _, h1, hh, hw, hr⟩ := encrypted []
  obtain ⟨f', j, hb'⟩ := refreshBuilder_ok
  obtain ⟨g, p, hg, hgm, _⟩ := decrypted hh hr
  have hnd : ¬ Describes creationRule f.metadata := fun hd => by
    obtain ⟨_, _, _, im, _, _, _, _, _, _, h6⟩ := Builder.encrypt_ok hb
    have := hd.1
    rw [h6] at this
    cases this
  refine ⟨f, m', f', j, h1, hh, hnd, hb', run_refresh_ok.2 ⟨by decide, [creationRule], .json, _, f, _, proc_config _ _,
    by decide +kernel, proc_input _ _ _, h1, ?_, .inl ⟨rfl, _, rfl, rfl, rfl⟩⟩⟩
  refine refreshWith_ok (file := placeLine.input.file).2 (.inr ⟨creationRule, (by decide +kernel : ruleFor env.rx [creationRule] placeLine.input.file = some creationRule), hnd, g, f', j, hg, ?_, rfl⟩)
  rw [hgm]
  exact hb'

end Rops.Toy
