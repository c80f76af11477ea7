import Verif.Props.CliHistories
/-!
# What becomes of an edit

C64: `rops edit` that succeeds after the editor left a readable document delivers that document,
encrypted for the same keys. If the document cannot be encrypted the command fails, and what was
edited is in no file.
-/

namespace Rops.Props
open Rops Spec

theorem encryptWith_total {env : Env} (he : EnvLaws env) (hC : env.C.Total) {F Fo : Format} {rep : Value → Prop}
    (hFo : Format.Lawful Fo rep) {g : DecFile F} {m : RMap Value} (hg : F.toInternal g.map = .ok m)
    (hfits : Fits env.fl rep g.metadata.partialEncryption m) {key : Bytes}
    {sm : Option SavedNonces} {sc : Option SavedMacNonce} (hsm : SavedSized env.C sm) (i : Nat) :
    ∃ (f : EncFile Fo) (j : Nat), g.encryptWith Fo env key sm sc i = .ok (f, j) := by
  obtain ⟨m', i1, h1⟩ := RMap.encrypt_total (env := env.encEnv key sm) hC g.metadata.partialEncryption m i
  have hs := sealed_of_encrypt (env := env.encEnv key sm) he.cipher he.nonce_length hsm hfits.keys h1
  obtain ⟨y, hy, _⟩ := hFo.enc_round_trip env.C he.cipher.name_no_comma env.rx _ m' (encHolds_of_sealed hfits.holds hs)
  obtain ⟨e, j, h2⟩ : ∃ e j, Mac.encrypt env.C env.nonce key g.metadata.lastModified sc g.metadata.mac i1 = .ok (e, j) := by
    unfold Mac.encrypt
    have := hC (Mac.nonceFor env.nonce sc g.metadata.mac i1).1 key g.metadata.mac g.metadata.lastModified.toBytes
    cases h : env.C.encrypt (Mac.nonceFor env.nonce sc g.metadata.mac i1).1 key g.metadata.mac g.metadata.lastModified.toBytes with
    | none => rw [h] at this; cases this
    | some r => simp only [h]; exact ⟨_, _, rfl⟩
  exact ⟨⟨y, decMetadata g.metadata e⟩, j, encryptWith_ok_iff.2 ⟨m, m', i1, hg, h1, h2, rfl, hy⟩⟩

/-- **C64.** If the cipher does not fail, the file can be opened, the editor is found and leaves a
document that rops can represent, and the file can be written or printed, the command succeeds. -/
theorem C64_succeeds {P : Proc} (he : EnvLaws P.env) (hC : P.env.C.Total) {a : InputArgs} {config : Config}
    (hc : P.retrieveConfig a.config = .ok config) {x : Fmt} (hx : getFormat a.file a.format = .ok x) {s : Str}
    (hs : InputText P a.file s) {f : EncFile x.doc.F} (hf : EncFile.ofText (P.T x) P.O P.env.C s = some f)
    {key : Bytes} {m : RMap Value} {m' : RMap EncLeaf} (hh : Holding P.env (docRep x) f key m m')
    {d : Bytes} (hr : P.env.retrieveDataKey f.metadata = .ok d) {t : Str} (ht : P.temp = some t)
    (hw : ∀ b, P.saves t b = .done) (hfound : EditorReady P)
    {edited : x.doc.F.Map} (hed : Edited (P.T x).parse edited P.editor) {m1 : RMap Value}
    (ho : x.doc.F.toInternal edited = .ok m1) (hfit : Fits P.env.fl (docRep x) f.metadata.partialEncryption m1)
    (hout : ∀ q, a.file = some q → ∀ b, P.saves q b = .done) (hpipe : a.file = none → P.stdout = none) (i : Nat) :
    ∃ es, P.run (.edit a) i = (es, .ok ()) := by
  obtain ⟨g, _, _, hmd, hg⟩ := decrypt_of_holding (Fo := x.doc.F) he (docRep_lawful x) hh hh.fits.holds hr
  obtain ⟨y, hy1, hy2⟩ := (docRep_lawful x).round_trip m1 hfit.holds
  have hsnd := editSession_started (map := g.map) ht (hw _) hfound
  rw [editLoop_edited hed] at hsnd
  obtain ⟨out, htext⟩ : ∃ out, P.editedText x g
      { dataKey := key, mapNonces := savedAll (leaves m') (leaves m) []
        macNonce := { mac := g.metadata.mac, nonce := f.metadata.mac.nonce } } edited i = .ok out := by
    simp only [Proc.editedText, DecFile.setMap, ho, hy1, DecFile.encryptSaved]
    have hp : g.metadata.partialEncryption = f.metadata.partialEncryption := by rw [hmd]; rfl
    obtain ⟨f', j, h⟩ := encryptWith_total (F := x.doc.F) (Fo := x.doc.F) he hC (docRep_lawful x)
      (g := { map := y, metadata := { g.metadata with
        lastModified := if !x.doc.F.eq g.map edited then (P.env.clock i).truncate else g.metadata.lastModified
        mac := P.env.macOf g.metadata m1 } }) (key := key)
      (sc := some { mac := g.metadata.mac, nonce := f.metadata.mac.nonce }) hy2 (by rw [← hp] at hfit; exact hfit)
      (sealed_saved_sized hh.sealed) i
    rw [h]
    exact ⟨_, rfl⟩
  have hdel : ∃ es2, Delivered P (P.stdin == .terminal) a.file out es2 := by
    rcases hs with ⟨q, b, hq, hin, _, _⟩ | ⟨b, hn, hin, _⟩
    · exact ⟨_, .inl ⟨by rw [hin]; rfl, q, hq, hout q hq _, rfl⟩⟩
    · exact ⟨_, .inr ⟨by rw [hin]; rfl, hpipe hn, rfl⟩⟩
  obtain ⟨es2, hdel⟩ := hdel
  exact ⟨_, run_edit_ok.2 ⟨⟨config, hc⟩, x, s, f, g, _, hx, hs, hf, hg,
    .inr ⟨edited, out, _, es2, show P.editSession x g.map = ((P.editSession x g.map).1, .ok (some edited)) by rw [← hsnd],
      htext, rfl, hdel⟩⟩⟩

/-- **C64.** If the editor left a document and the command succeeds, the text delivered is that of
an encrypted file which holds exactly this document, with the data key, the recipients and the
settings of the file that was opened. -/
theorem C64_written {P : Proc} (he : EnvLaws P.env) {a : InputArgs} {i : Nat} {es : List Event}
    (h : P.run (.edit a) i = (es, .ok ())) {x : Fmt} (hx : getFormat a.file a.format = .ok x) {s : Str}
    (hs : InputText P a.file s) {f : EncFile x.doc.F} (hf : EncFile.ofText (P.T x) P.O P.env.C s = some f)
    {key : Bytes} {m : RMap Value} {m' : RMap EncLeaf} (hh : Holding P.env (docRep x) f key m m')
    {edited : x.doc.F.Map} (hed : Edited (P.T x).parse edited P.editor) {m1 : RMap Value}
    (ho : x.doc.F.toInternal edited = .ok m1) (hfit : Fits P.env.fl (docRep x) f.metadata.partialEncryption m1) :
    ∃ (f' : EncFile x.doc.F) (m'' : RMap EncLeaf) (es1 es2 : List Event), es = es1 ++ es2 ∧ Between P es1 ∧
      Delivered P (P.stdin == .terminal) a.file (EncFile.toText (P.T x) P.env.C f') es2 ∧
      Holding P.env (docRep x) f' key m1 m'' ∧
      f'.metadata.integration = f.metadata.integration ∧
      f'.metadata.partialEncryption = f.metadata.partialEncryption ∧
      f'.metadata.macOnlyEncrypted = f.metadata.macOnlyEncrypted := by
  obtain ⟨_, x', s', f0, g, p, hx', hs', hf', hg, hrest⟩ := run_edit_ok.1 h
  rw [hx] at hx'
  cases hx'
  cases inputText_unique hs hs'
  rw [hf] at hf'
  cases hf'
  have hsnd := editSession_snd (map := g.map) fun t => editLoop_edited (t := t) hed
  rcases hrest with hse | ⟨mm, out, es1, es2, hse, hout, rfl, hd⟩
  · rw [hse] at hsnd
    rcases hsnd with h' | ⟨e, h', _⟩ <;> cases h'
  · rw [hse] at hsnd
    have hmm : mm = edited := by
      rcases hsnd with h' | ⟨e, h', _⟩
      · cases h'; rfl
      · cases h'
    subst hmm
    obtain ⟨_, hpl, hmd, rfl⟩ := of_decryptAndSave_holding he (docRep_lawful x) hh hh.fits.holds hg
    unfold Proc.editedText at hout
    split at hout
    · cases hout
    · rename_i g' hset
      split at hout
      · cases hout
      · rename_i f' j hf'
        cases hout
        obtain ⟨hpl', e1, e2, e3⟩ := setMap_ok he (docRep_lawful x) ho hfit.holds hset
        have ei : g'.metadata.integration = f.metadata.integration := by rw [e1, hmd]; rfl
        have ep : g'.metadata.partialEncryption = f.metadata.partialEncryption := by rw [e2, hmd]; rfl
        have em : g'.metadata.macOnlyEncrypted = f.metadata.macOnlyEncrypted := by rw [e3, hmd]; rfl
        unfold DecFile.encryptSaved at hf'
        obtain ⟨m'', _, hh', hmd', _⟩ := holding_of_encryptWith he (docRep_lawful x) hpl' (by rw [ep]; exact hfit) hh.key_length
          (by rw [ei]; exact hh.units) (by rw [ei]; exact hh.ids) (sealed_saved_sized hh.sealed)
          (fun s hs => by cases hs; exact hh.mac_sized.nonce_length) hf'
        refine ⟨f', m'', es1, es2, rfl, ?_, hd, hh', ?_, ?_, ?_⟩
        · rcases editSession_shape hse with ⟨h, _⟩ | ⟨_, h⟩
          · exact h
          · cases h
        · rw [hmd']; exact ei
        · rw [hmd']; exact ep
        · rw [hmd']; exact em

/-- **C64.** If the editor left a document that rops cannot represent, the command does not
succeed, prints nothing, and all files are as they were before, the temporary file being gone: the
edit is lost. If nothing fails before, the error is that of the document. -/
theorem C64_lost {P : Proc} (hfresh : FreshTemp P) {a : InputArgs} {x : Fmt} (hx : getFormat a.file a.format = .ok x)
    {edited : x.doc.F.Map} (hed : Edited (P.T x).parse edited P.editor) {e : FormatError}
    (hbad : x.doc.F.toInternal edited = .error e) (i : Nat) :
    (P.run (.edit a) i).2 ≠ .ok () ∧ filesAfter P.file (P.run (.edit a) i).1 = P.file ∧
    (∀ t, Event.print t ∉ (P.run (.edit a) i).1) ∧
    ∀ {config s} {f : EncFile x.doc.F} {g p t}, P.retrieveConfig a.config = .ok config → InputText P a.file s →
      EncFile.ofText (P.T x) P.O P.env.C s = some f → f.decryptAndSave x.doc.F P.env = .ok (g, p) →
      P.temp = some t → P.saves t (utf8 ((P.T x).render g.map)) = .done → EditorReady P →
      (P.run (.edit a) i).2 = .error (.setMap (.format e)) := by
  have htext : ∀ (g : DecFile x.doc.F) p, P.editedText x g p edited i = .error (.setMap (.format e)) := by
    intro g p
    simp only [Proc.editedText, DecFile.setMap, hbad]
  have hsess : ∀ (g : DecFile x.doc.F) (es : List Event) (res : Except CliError (Option x.doc.F.Map)),
      P.editSession x g.map = (es, res) → Between P es ∧ (res = .ok (some edited) ∨ ∃ e', res = .error e') := by
    intro g es res hse
    have hsnd := editSession_snd (map := g.map) fun t => editLoop_edited (t := t) hed
    rw [hse] at hsnd
    refine ⟨?_, ?_⟩
    · rcases editSession_shape hse with ⟨h, _⟩ | ⟨_, h⟩
      · exact h
      · rcases hsnd with h' | ⟨e', h', hne⟩
        · simp only at h'
          rw [h'] at h
          cases h
        · simp only at h'
          rw [h'] at h
          cases h
          exact absurd rfl hne
    · rcases hsnd with h' | ⟨e', h', _⟩
      · exact .inl h'
      · exact .inr ⟨e', h'⟩
  have hall : Between P (P.run (.edit a) i).1 ∧ (P.run (.edit a) i).2 ≠ .ok () := by
    rw [run_edit]
    cases hc : P.retrieveConfig a.config with
    | error e => exact ⟨.inl rfl, by simp⟩
    | ok config =>
      simp only [Proc.edit, hx, Proc.editFile]
      split
      · exact ⟨.inl rfl, by simp⟩
      · split
        · exact ⟨.inl rfl, by simp⟩
        · split
          · exact ⟨.inl rfl, by simp⟩
          · rename_i g p _
            cases hse : P.editSession x g.map with
            | mk es res =>
              obtain ⟨hb, rfl | ⟨e', rfl⟩⟩ := hsess g es res hse
              · simp only [htext]
                exact ⟨hb, by simp⟩
              · exact ⟨hb, by simp⟩
  refine ⟨hall.2, hall.1.files hfresh, fun t hm => ?_, ?_⟩
  · rcases hall.1 with h | ⟨t, mid, _, h, hmid⟩
    · rw [h] at hm; cases hm
    · rw [h] at hm
      simp only [List.mem_cons, List.mem_append, List.not_mem_nil, or_false, reduceCtorEq, false_or] at hm
      cases hmid _ hm
  · intro config s f g p t hc hs hf hg ht hw hed'
    have h1 := editSession_started ht hw hed'
    rw [editLoop_edited hed] at h1
    rw [run_edit, hc]
    simp only [Proc.edit, hx, Proc.editFile, (getInput_ok (inPlace := none)).2 ⟨hs, fun h => nomatch h.1⟩, parseFile_ok.2 hf, hg]
    cases hse : P.editSession x g.map with
    | mk es res =>
      rw [hse] at h1
      simp only at h1
      subst h1
      simp only [htext]

/-- A document with an integer that is too large. -/
def tooLarge : Format.json.Map := [(c!"a", .leaf (.num (.posInt 9223372036854775808)))]

/-- A document with another secret. -/
def changed : Format.json.Map := [(c!"a", .leaf (.str c!"y"))]

theorem leftBehind (m : Format.json.Map) :
    Edited Toy.jsonText.parse m [.left (.data (utf8 c!"{")) .key, .left (.data (utf8 (Toy.mapText m))) .key] :=
  .again (utf8?_utf8 _) (by decide +kernel) (.now (utf8?_utf8 _) (Toy.jsonText_laws.parse_render m trivial))

/-- The user leaves an open brace and then an integer that is too large: the edit is lost, with the
error of the integer. -/
example : ∃ P : Proc, FreshTemp P ∧ Edited (P.T .json).parse tooLarge P.editor ∧
    (P.run (.edit Toy.input) 7).2 = .error (.setMap (.format (.integerOutOfRange 9223372036854775808))) ∧
    filesAfter P.file (P.run (.edit Toy.input) 7).1 = P.file := by
  let ed : List Attempt := [.left (.data (utf8 c!"{")) .key, .left (.data (utf8 (Toy.mapText tooLarge))) .key]
  obtain ⟨f, _, m', _, _, h1, hh, _, hr⟩ := Toy.encrypted ed
  obtain ⟨g, p, _, _, hg⟩ := Toy.decrypted hh hr
  have hl := C64_lost (P := Toy.proc Toy.rule (EncFile.toText Toy.jsonText Toy.env.C f) ed) (x := .json) (Toy.fresh _ _ _)
    (a := Toy.input) (by decide +kernel) (leftBehind tooLarge) (e := .integerOutOfRange 9223372036854775808) rfl 7
  exact ⟨_, Toy.fresh _ _ _, leftBehind tooLarge,
    hl.2.2.2 (Toy.proc_config _ _) (Toy.proc_input _ _ _) h1 hg rfl rfl (Toy.proc_editor _ _ _), hl.2.1⟩

/-- The user leaves an open brace and then another secret: the file written holds it. -/
example : ∃ (P : Proc) (es : List Event) (f' : EncFile Format.json) (m'' : RMap EncLeaf),
    P.run (.edit Toy.input) 7 = (es, .ok ()) ∧
    .write c!"a.json" (utf8 (EncFile.toText Toy.jsonText Toy.env.C f')) .done ∈ es ∧
    Holding Toy.env jsonRep f' (Toy.env.newKey 0) [(c!"a", .leaf (.string c!"y"))] m'' := by
  let ed : List Attempt := [.left (.data (utf8 c!"{")) .key, .left (.data (utf8 (Toy.mapText changed))) .key]
  obtain ⟨f, _, m', _, _, h1, hh, _, hr⟩ := Toy.encrypted ed
  let P := Toy.proc Toy.rule (EncFile.toText Toy.jsonText Toy.env.C f) ed
  have hx : getFormat Toy.input.file Toy.input.format = .ok .json := by decide +kernel
  have ho : Format.json.toInternal changed = .ok [(c!"a", .leaf (.string c!"y"))] := rfl
  have hfit : Fits Toy.env.fl jsonRep f.metadata.partialEncryption [(c!"a", .leaf (.string c!"y"))] := by
    have hl : leaves ([(c!"a", .leaf (.string c!"y"))] : RMap Value) = [([c!"a"], .string c!"y")] := rfl
    refine ⟨?_, ?_, fun _ => ?_⟩
    · unfold Canonical; rw [hl]; intro pv h; rw [List.mem_singleton] at h; subst h; trivial
    · unfold Holds; rw [hl]; intro pv h; rw [List.mem_singleton] at h; subst h; trivial
    · exact .inl (by unfold NoColon; decide)
  obtain ⟨es, hrun⟩ := C64_succeeds (P := P) (a := Toy.input) (x := .json) Toy.env_laws Toy.cipher_total (Toy.proc_config _ _) hx
    (Toy.proc_input _ _ _) h1 hh hr (t := c!"/tmp/t") rfl (fun _ => rfl) (Toy.proc_editor _ _ _) (leftBehind changed) ho hfit (fun _ _ _ => rfl) (fun _ => rfl) 7
  obtain ⟨f', m'', e1, e2, hes, _, hd, hh', _⟩ := C64_written (P := P) (x := .json) Toy.env_laws hrun hx
    (Toy.proc_input _ _ _) h1 hh (leftBehind changed) ho hfit
  refine ⟨P, _, f', m'', hrun, ?_, hh'⟩
  rw [hes]
  rcases hd with ⟨_, q, hq, _, rfl⟩ | ⟨h, _⟩
  · cases hq
    exact List.mem_append_right _ (.head _)
  · cases h

end Rops.Props
