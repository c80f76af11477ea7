import Verif.Lemmas.ToyCli
import Verif.Lemmas.CliHistory
/-! A history of the file used in examples. -/

namespace Rops.Toy
open Rops Spec

/-- The map of `small`. -/
def smallMap : RMap Value := [(c!"a", .leaf (.string c!"x")), (c!"b_plain", .leaf (.boolean true))]

theorem small_keepable : Keepable env.fl .json smallMap where
  fits p := ⟨small_fits.canonical, small_fits.holds, fun _ => .inl (by unfold NoColon smallMap; decide)⟩
  sops := by decide
  toml h := nomatch h

/-- What this text syntax writes it also reads. -/
theorem readBack (rule : List (Str × Toml)) (m : RMap Value) (s : Str) : ReadBack env.C .json (texts rule .json) m s :=
  fun f _ _ _ hd => by
    show jsonText.parse _ = _
    rw [hd]; exact jsonText_laws.parse_render _ trivial

theorem sameProgram (r : List (Str × Toml)) (s : Str) (ed : List Attempt) : SameProgram env docOps (texts r) (proc r s ed) :=
  ⟨⟨env.host, rfl⟩, rfl, rfl⟩

theorem config_writable : ConfigWritable docOps [creationRule] := by
  intro r hr
  rw [List.mem_singleton] at hr
  subst hr
  exact ⟨⟨fun _ _ => rfl, fun _ h => nomatch h⟩, fun _ h => by cases h; rfl⟩

/-- A command of the process ran. -/
theorem ran {c : Command} {i : Nat} {s s' : Str} {ed : List Attempt}
    (hrun : (proc rule s ed).run c i = ([.write c!"a.json" (utf8 s') .done], .ok ()))
    (ht : target (proc rule s ed) c = some c!"a.json") (hf : givenFormat c = none) (hconf : c.configPath = none)
    (hk : KeysWritable docOps (givenKeys c)) (hs : givenSetting c = none) :
    Ran env docOps (texts rule) .json c!"a.json" (proc rule s ed) c i s s' where
  program := sameProgram _ _ _
  target := ht
  format := by rw [hf]; decide +kernel
  run := ⟨_, hrun, by simp [filesAfter, effect, Files.put]⟩
  found := rfl
  config := fun config h => by
    rw [hconf, proc_config] at h
    cases h
    exact config_writable
  keys := hk
  setting := fun p h => by rw [hs] at h; cases h
  temp := fresh _ _ _

/-- `rops keys remove --age pk2 a.json` -/
def removeArgs : KeyArgs := { format := none, file := c!"a.json", keys := { age := [c!"pk2"], kms := [] } }

/-- Another document. -/
def other : DocFormat.json.F.Map := [(c!"a", .leaf (.str c!"y")), (c!"b_plain", .leaf (.bool true))]

/-- Its map. -/
def otherMap : RMap Value := [(c!"a", .leaf (.string c!"y")), (c!"b_plain", .leaf (.boolean true))]

theorem other_fits : Fits env.fl jsonRep (some (.unencryptedSuffix c!"_plain")) otherMap := by
  have hl : leaves otherMap = [([c!"a"], Value.string c!"y"), ([c!"b_plain"], .boolean true)] := rfl
  refine ⟨?_, ?_, fun _ => .inl (by unfold NoColon; decide)⟩
  · unfold Canonical
    rw [hl]
    intro pv h
    simp only [List.mem_cons, List.not_mem_nil, or_false] at h
    rcases h with rfl | rfl <;> trivial
  · unfold Holds
    rw [hl]
    intro pv h
    simp only [List.mem_cons, List.not_mem_nil, or_false] at h
    rcases h with rfl | rfl <;> trivial

theorem other_keepable : Keepable env.fl .json otherMap where
  fits p := ⟨other_fits.canonical, other_fits.holds, fun _ => .inl (by unfold NoColon otherMap; decide)⟩
  sops := by decide
  toml h := nomatch h

/-- The user of the editor leaves an open brace, and then `other`. -/
def attempts : List Attempt := [.left (.data (utf8 c!"{")) .key, .left (.data (utf8 (mapText other))) .key]

theorem attempts_edited : Edited jsonText.parse other attempts :=
  .again (utf8?_utf8 _) (by decide +kernel) (.now (utf8?_utf8 _) (jsonText_laws.parse_render other trivial))

/-- The file is encrypted; then a key is removed, or the document is edited. -/
theorem history : ∃ (s s1 s2 : Str) (f : EncFile Format.json) (es : List Event),
    Kept env docOps (texts rule) .json c!"a.json" s smallMap ∧
    EncFile.ofText jsonText docOps env.C s = some f ∧ keyIds f.metadata.integration .age = [c!"pk2", c!"pk1"] ∧
    (proc rule s []).run (.removeKeys removeArgs) 50 = ([.write c!"a.json" (utf8 s1) .done], .ok ()) ∧
    Ran env docOps (texts rule) .json c!"a.json" (proc rule s []) (.removeKeys removeArgs) 50 s s1 ∧
    (proc rule s attempts).run (.edit input) 60 = (es, .ok ()) ∧
    Ran env docOps (texts rule) .json c!"a.json" (proc rule s attempts) (.edit input) 60 s s2 := by
  obtain ⟨f, j, m', hb, hrun, h1, hh, hw, hr⟩ := encrypted []
  obtain ⟨g, p, hgd, hgm, hg⟩ := decrypted hh hr
  have hc : (match smallBuilder.encrypt env 0 with
      | .error _ => false
      | .ok (f, _) => match f.decryptAndSave Format.json env with
        | .error _ => false
        | .ok (g, p) => match (proc rule [] []).editedText .json g p other 60 with
          | .error _ => false
          | .ok _ => true) = true := by decide +kernel
  have hc' : (match smallBuilder.encrypt env 0 with
      | .error _ => false
      | .ok (f, _) => match f.decrypt Format.json env with
        | .error _ => false
        | .ok g => match g.removeKeys env .age [c!"pk2"] 50 with
          | .error _ => false
          | .ok (g1, j1) => match g1.removeKeys env .kms [] j1 with
            | .error _ => false
            | .ok (g2, j2) => match g2.encrypt Format.json env j2 with
              | .error _ => false
              | .ok _ => true) = true := by decide +kernel
  rw [hb] at hc hc'
  simp only at hc hc'
  rw [hg] at hc
  rw [hgd] at hc'
  simp only at hc hc'
  split at hc
  · cases hc
  rename_i out hout
  split at hc'
  · cases hc'
  rename_i g1 j1 hg1
  split at hc'
  · cases hc'
  rename_i g2 j2 hg2
  split at hc'
  · cases hc'
  rename_i r hr
  obtain ⟨f', j3⟩ := r
  let P := proc rule (EncFile.toText jsonText env.C f) attempts
  have hx : getFormat input.file input.format = .ok .json := by decide +kernel
  have hs : InputText P input.file (EncFile.toText jsonText env.C f) := proc_input _ _ _
  have hsnd : (P.editSession .json g.map).2 = .ok (some other) := by
    have h1 := editSession_started (P := P) (x := .json) (map := g.map) (t := c!"/tmp/t") rfl rfl (proc_editor _ _ _)
    have h2 := editLoop_edited (P := P) (x := .json) (t := c!"/tmp/t") attempts_edited
    exact Eq.trans h1 h2
  have hses : ∃ es, P.editSession .json g.map = (es, .ok (some other)) := by
    revert hsnd
    generalize P.editSession .json g.map = r
    intro h
    exact ⟨r.1, Prod.ext rfl h⟩
  obtain ⟨es1, hses⟩ := hses
  have hdel : Delivered P (P.stdin == .terminal) input.file out [.write c!"a.json" (utf8 out) .done] :=
    .inl ⟨rfl, _, rfl, rfl, rfl⟩
  have hrun1 : (proc rule (EncFile.toText jsonText env.C f) []).run (.removeKeys removeArgs) 50 =
      ([.write c!"a.json" (utf8 (EncFile.toText jsonText env.C f')) .done], .ok ()) :=
    run_removeKeys_ok.2 ⟨⟨_, proc_config _ _⟩, .json, _, f, g, g1, g2, j1, j2, j3, f', by decide +kernel, proc_input _ _ _, h1,
      hgd, hg1, hg2, hr, .inl ⟨rfl, _, rfl, rfl, rfl⟩⟩
  have hrun2 := (run_edit_ok (P := P) (a := input) (i := 60)).2
    ⟨⟨_, proc_config _ _⟩, .json, _, f, g, p, hx, hs, h1, hg, .inr ⟨other, _, _, _, hses, hout, rfl, hdel⟩⟩
  refine ⟨EncFile.toText jsonText env.C f, EncFile.toText jsonText env.C f', out, f, _,
    .encrypted (ran hrun rfl rfl rfl ⟨fun _ _ => rfl, fun _ h => nomatch h⟩ rfl)
    (jsonText_laws.parse_render small trivial) rfl small_keepable (readBack _ _ _), h1, ?_, hrun1, ran hrun1 rfl rfl rfl
    ⟨fun _ _ => rfl, fun _ h => nomatch h⟩ rfl, hrun2, ?_⟩
  · obtain ⟨_, _, _, im, _, _, _, h3, _, _, h6⟩ := Builder.encrypt_ok hb
    rw [h6, (intoMetadata_ok h3).2.2.1]; decide
  · exact {
      program := sameProgram _ _ _
      target := rfl
      format := hx
      run := ⟨_, hrun2, by rw [filesAfter_append]; simp [filesAfter, effect, Files.put]⟩
      found := rfl
      config := fun config h => by
        rw [show (Command.edit input).configPath = none from rfl, proc_config] at h
        cases h
        exact config_writable
      keys := ⟨fun _ h => (nomatch h), fun _ h => (nomatch h)⟩
      setting := fun p h => nomatch h
      temp := fresh _ _ _ }

end Rops.Toy
