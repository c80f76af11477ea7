import Verif.Lemmas.Crashes
import Verif.Props.Commands
/-! Lemmas about the crashes of whole runs. -/

namespace Rops.Spec

/-- A resource name of AWS whose resource, split at its last '/', has an invalid part. -/
def BadArn (A : ArnChecks) (s : Str) : Prop :=
  ∃ p sv rg ac res, ArnParts A s p sv rg ac res ∧
    ∀ parent id, ResourceParts res parent id → ¬ ((∀ q, parent = some q → A.resource q = true) ∧ A.ident id = true)

/-- Metadata with an overlong MAC or a bad ARN. -/
def BadMetadata (O : DocOps) (C : Cipher) (md : RMap JsonScalar) : Prop :=
  (∃ t, (c!"mac", .leaf (.str t)) ∈ md ∧ Overlong C t) ∨
  (∃ l u t, (c!"kms", .seq l) ∈ md ∧ .map u ∈ l ∧ (c!"arn", .leaf (.str t)) ∈ u ∧ BadArn O.arn t)

/-- A value is a field of a struct, which is a table or an array. -/
def FieldOf (name : Str) (place : Nat) (v : Json) : Json → Prop
  | .map d => (name, v) ∈ d
  | .seq l => l[place]? = some v
  | _ => False

/-- A configuration with a bad ARN in a rule. -/
def BadConfig (O : DocOps) (d : RMap JsonScalar) : Prop :=
  ∃ l r keys ks profile arn, (c!"creation_rules", .seq l) ∈ d ∧ r ∈ l ∧ FieldOf c!"integration_keys" 3 keys r ∧
    FieldOf c!"aws_kms" 1 (.seq ks) keys ∧ .leaf (.str (profile ++ '.' :: arn)) ∈ ks ∧ '.' ∉ profile ∧ BadArn O.arn arn

/-- The configuration a command uses: that of its flag, or that of the variable, or the first
that is found from the current directory upwards. -/
def ConfigChosen (P : Proc) (c : Command) (p : Str) : Prop :=
  c.configPath = some p ∨ c.configPath = none ∧ (P.configVar = some p ∨ P.configVar = none ∧
    ∃ dir, P.cwd = some dir ∧ ((ancestors dir).map configPath).find? (fun p => P.file p ≠ .missing) = some p)

/-- The editor leaves, perhaps after other texts that cannot be parsed, one for which no message
can be written. -/
inductive Unheard {α : Type} (parse : Str → Option α) : List Attempt → Prop where
  | now {b s r} (hu : utf8? b = some s) (hp : parse s = none) : Unheard parse (.left (.data b) .noMessage :: r)
  | again {b s r} (hu : utf8? b = some s) (hp : parse s = none) (h : Unheard parse r) :
    Unheard parse (.left (.data b) .key :: r)

/-- The variable EDITOR has no word in it; or it is not set and the path of the editor found is not
UTF-8; or interrupts cannot be handled; or there is no standard error for a message. -/
def EditorCrash (P : Proc) (x : Fmt) : Prop :=
  (∃ b s, P.editorVar = some b ∧ utf8? b = some s ∧ P.shlex s = some []) ∨
  (P.editorVar = none ∧ ∃ b, fallback P = some b ∧ utf8? b = none) ∨
  P.handlerSet = false ∨ Unheard (P.T x).parse P.editor

end Rops.Spec

namespace Rops
open Spec Props

theorem awsKeyId_panics_iff {A : ArnChecks} (hA : A.Lawful) {s : Str} : AwsKeyId.parse A s = .error .panic ↔
    ∃ profile arn, s = profile ++ '.' :: arn ∧ '.' ∉ profile ∧ BadArn A arn := by
  unfold AwsKeyId.parse
  cases h : splitOnce '.' s with
  | none =>
    simp only [reduceCtorEq, Except.error.injEq, false_iff]
    rintro ⟨profile, arn, rfl, hp, _⟩
    rw [splitOnce_eq_some.2 ⟨rfl, hp⟩] at h
    cases h
  | some pr =>
    obtain ⟨profile, arn⟩ := pr
    obtain ⟨rfl, hp⟩ := splitOnce_eq_some.1 h
    have hb := C55_arn_panics_iff hA arn
    simp only
    constructor
    · intro h'
      refine ⟨profile, arn, rfl, hp, hb.1 ?_⟩
      split at h'
      · cases h'
      · rename_i e he; cases h'; exact he
    · rintro ⟨profile', arn', he, hp', hb'⟩
      rw [he, splitOnce_eq_some.2 ⟨rfl, hp'⟩] at h
      cases h
      rw [hb.2 hb']

theorem fieldsHalt_mem {field : Str → Option (Json → Option Halt)} {seen : List Str} {d : RMap JsonScalar}
    (h : fieldsHalt field seen d = none) {k : Str} {v : Json} (hm : (k, v) ∈ d) {read : Json → Option Halt}
    (hk : field k = some read) : read v = none := by
  induction d generalizing seen with
  | nil => cases hm
  | cons kv r ih =>
    obtain ⟨k', v'⟩ := kv
    simp only [fieldsHalt] at h
    rcases List.mem_cons.1 hm with hm | hm
    · cases hm
      rw [hk] at h
      simp only at h
      split at h
      · cases h
      · split at h
        · cases h
        · assumption
    · split at h
      · exact ih h hm
      · split at h
        · cases h
        · split at h
          · cases h
          · exact ih h hm

theorem unit_panic {O : DocOps} (hA : O.arn.Lawful) {k : Kind} {u : RMap JsonScalar} (h : unitHalt O k u = some .panic) :
    k = .kms ∧ ∃ t, (c!"arn", .leaf (.str t)) ∈ u ∧ BadArn O.arn t := by
  unfold unitHalt at h
  rw [andThen_eq_some, andThen_eq_some, andThen_eq_some] at h
  rcases h with h | ⟨_, h | ⟨_, h | ⟨_, h⟩⟩⟩
  · obtain ⟨n, v, read, _, hr, hv⟩ := fieldsHalt_panic h
    simp only [unitFields] at hr
    split at hr
    · cases hr
      simp only at hv
      split at hv
      · cases hv
      · obtain ⟨_, _, hv⟩ := textHalt_panic.1 hv
        exact absurd hv unless_ne_panic
    · split at hr
      · cases hr
        obtain ⟨_, _, hv⟩ := textHalt_panic.1 hv
        cases hv
      · cases hr
  · exact absurd h requiredHalt_ne_panic
  · obtain ⟨n, v, read, hm, hr, hv⟩ := fieldsHalt_panic h
    cases k with
    | age =>
      simp only [keyIdFields] at hr
      split at hr
      · cases hr
        obtain ⟨_, _, hv⟩ := textHalt_panic.1 hv
        exact absurd hv unless_ne_panic
      · cases hr
    | kms =>
      simp only [keyIdFields] at hr
      split at hr
      · cases hr
        obtain ⟨_, _, hv⟩ := textHalt_panic.1 hv
        cases hv
      · split at hr
        · rename_i hn
          cases hr
          obtain ⟨t, rfl, hv⟩ := textHalt_panic.1 hv
          subst hn
          exact ⟨rfl, t, hm, (C55_arn_panics_iff hA t).1 (ofKey_eq_panic.1 hv)⟩
        · cases hr
  · exact absurd h requiredHalt_ne_panic

theorem yaml_first {d map : List (Yaml × Yaml)} {md : RMap JsonScalar} (h : Yaml.takeSops d = some (map, md)) :
    Yaml.firstSops d = some md := by
  unfold Yaml.takeSops at h
  unfold Yaml.firstSops
  split at h
  · rename_i e d' hd
    rw [← List.head?_filter, hd]
    simp only [List.head?_cons]
    split at h
    · cases h; assumption
    · cases h
  · cases h

theorem takeSops_first {x : Fmt} {d map : x.doc.F.Map} {md : RMap JsonScalar} (h : x.doc.takeSops d = some (map, md)) :
    x.doc.firstSops d = some md := by
  have hget : ∀ {β : Type} (d : List (Str × β)) (v : β), docField d sopsKey = some (some v) →
      IndexMap.get d sopsKey = some v := by
    intro β d v h
    induction d with
    | nil => simp [docField] at h
    | cons kv r ih =>
      obtain ⟨k, w⟩ := kv
      rw [docField_cons] at h
      simp only [IndexMap.get]
      by_cases hk : k = sopsKey
      · rw [if_pos hk] at h ⊢
        split at h
        · exact Option.some.inj h
        · cases h
      · rw [if_neg hk] at h ⊢
        exact ih h
  cases x with
  | json =>
    have h : Json.takeSops d = some (map, md) := h
    show Json.firstSops d = _
    unfold Json.takeSops at h
    unfold Json.firstSops
    split at h
    · rename_i hd
      rw [hget _ _ hd]
      cases h
      rfl
    · cases h
  | toml =>
    have h : Toml.takeSops d = some (map, md) := h
    show Toml.firstSops d = _
    unfold Toml.takeSops at h
    unfold Toml.firstSops
    split at h
    · rename_i hd
      rw [hget _ _ hd]
      cases h
      rfl
    · cases h
  | yaml =>
    exact yaml_first h

/-- Reading a text never both panics and gives a file. -/
theorem textPanics_none {P : Proc} {x : Fmt} {s : Str} (h : EncFile.textPanics (P.T x) P.O P.env.C s = true) :
    EncFile.ofText (P.T x) P.O P.env.C s = none := by
  unfold EncFile.textPanics at h
  unfold EncFile.ofText
  split at h
  · rename_i d hd
    rw [hd]
    unfold EncFile.docPanics at h
    simp only
    unfold EncFile.ofDoc
    cases ht : x.doc.takeSops d with
    | none => rfl
    | some r =>
      obtain ⟨map, md⟩ := r
      rw [takeSops_first ht] at h
      simp only [beq_iff_eq] at h
      simp only
      cases hm : Metadata.ofDoc P.O (fun s => (EncValue.parse P.env.C s).toOption) md with
      | none => rfl
      | some m =>
        have := (metadata_agrees P.O P.env.C md).2 (by rw [hm]; rfl)
        rw [h] at this
        cases this
  · cases h

theorem configPanics_none {P : Proc} {s : Str} (h : Config.textPanics (P.T .toml) P.O s = true) :
    Config.ofText (P.T .toml) P.O s = none := by
  unfold Config.textPanics at h
  unfold Config.ofText
  split at h
  · rename_i d hd
    rw [hd]
    simp only [beq_iff_eq] at h
    simp only
    cases hc : Config.ofDoc P.O (Toml.mapToDoc d) with
    | none => rfl
    | some c =>
      have := (config_agrees P.O (Toml.mapToDoc d)).2 (by rw [hc]; rfl)
      rw [h] at this
      cases this
  · cases h

theorem parseFile_panics {P : Proc} {x : Fmt} {s : Str} (h : EncFile.textPanics (P.T x) P.O P.env.C s = true) :
    P.parseFile x s = .error .panic := by
  unfold Proc.parseFile
  rw [textPanics_none h]
  simp [h]

theorem accepted_place {l : PlaceLine} (h : l.args.isSome) : l.args = some ⟨l.input, some l.inPlace⟩ ∧
    ¬ (l.inPlace = true ∧ l.input.file = none) := by
  unfold PlaceLine.args at h ⊢
  split at h
  · cases h
  · rename_i hn
    rw [if_neg hn]
    refine ⟨rfl, ?_⟩
    rintro ⟨h1, h2⟩
    simp [h1, h2] at hn

/-- A command that reads an encrypted file fails without any effect if this cannot be read. -/
theorem run_parseFile_error {P : Proc} {c : Command} {i : Nat} (hc : c.accepted = true) {config : Config}
    (hcfg : P.retrieveConfig c.configPath = .ok config) (hne : ∀ l, c ≠ .encrypt l) {x : Fmt}
    (hx : getFormat (opens c) (givenFormat c) = .ok x) {s : Str} (hs : InputText P (opens c) s) {e : CliError}
    (hpf : P.parseFile x s = .error e) : P.run c i = ([], .error e) := by
  unfold Proc.run
  rw [if_pos hc, hcfg]
  simp only
  cases c with
  | encrypt l => exact absurd rfl (hne l)
  | decrypt l =>
    obtain ⟨ha, hn⟩ := accepted_place hc
    have hg : P.getInput l.input.file (some l.inPlace) = .ok s := getInput_ok.2 ⟨hs, hn⟩
    have hx : getFormat l.input.file l.input.format = .ok x := hx
    simp only [Proc.dispatch, ha, Proc.decrypt, hx, hg, Proc.decryptText, hpf]
  | edit a =>
    have hg : P.getInput a.file none = .ok s := getInput_ok.2 ⟨hs, by simp⟩
    have hx : getFormat a.file a.format = .ok x := hx
    simp only [Proc.dispatch, Proc.edit, hx, Proc.editFile, hg, hpf]
  | addKeys a =>
    have hg : P.getInput (some a.file) none = .ok s := getInput_ok.2 ⟨hs, by simp⟩
    have hx : getFormat (some a.file) a.format = .ok x := hx
    simp only [Proc.dispatch, Proc.keys, hx, hg, Proc.addKeysText, hpf, Bool.false_eq_true, if_false]
  | removeKeys a =>
    have hg : P.getInput (some a.file) none = .ok s := getInput_ok.2 ⟨hs, by simp⟩
    have hx : getFormat (some a.file) a.format = .ok x := hx
    simp only [Proc.dispatch, Proc.keys, hx, hg, Proc.removeKeysText, hpf, if_true]
  | refresh l =>
    obtain ⟨ha, hn⟩ := accepted_place hc
    have hg : P.getInput l.input.file (some l.inPlace) = .ok s := getInput_ok.2 ⟨hs, hn⟩
    have hx : getFormat l.input.file l.input.format = .ok x := hx
    have hcfg : P.retrieveConfig l.input.config = .ok config := hcfg
    simp only [Proc.dispatch, ha, Proc.refresh, hx, hg, Proc.refreshText, hcfg, hpf]

theorem getFormat_calm {file : Option Str} {format : Option Fmt} {e : CliError} (h : getFormat file format = .error e) :
    ¬ Crash e := by
  unfold getFormat at h
  split at h
  · cases h
  · split at h
    · cases h; exact id
    · split at h
      · cases h
      · cases h; exact id

theorem readFile_calm {P : Proc} {p : Str} {e : CliError} (h : P.readFile p = .error e) : ¬ Crash e := by
  unfold Proc.readFile at h
  split at h
  · split at h <;> cases h; exact id
  · cases h; exact id

theorem getInput_calm {P : Proc} {file : Option Str} {inPlace : Option Bool} {e : CliError}
    (h : P.getInput file inPlace = .error e) (hn : ¬ (inPlace.getD false = true ∧ file = none)) : ¬ Crash e := by
  have hp : ∀ p, P.readFromPath p = .error e → ¬ Crash e := by
    intro p h
    unfold Proc.readFromPath at h
    split at h
    · cases h; exact id
    · exact readFile_calm h
  unfold Proc.getInput at h
  split at h
  · rename_i hi
    cases file with
    | none => exact absurd ⟨hi, rfl⟩ hn
    | some p => exact hp p h
  · cases file with
    | some p => exact hp p h
    | none =>
      simp only at h
      split at h
      · cases h; exact id
      · cases h; exact id
      · split at h <;> cases h; exact id

theorem write_calm {P : Proc} {p s : Str} {es : List Event} {e : CliError} (h : P.write p s = (es, .error e)) : ¬ Crash e := by
  simp only [Proc.write] at h
  split at h <;> cases h
  exact id

theorem writeOrPrint_calm {P : Proc} {file : Option Str} {inPlace : Option Bool} {s : Str} {es : List Event} {e : CliError}
    (hO : P.stdout = none) (h : P.writeOrPrint inPlace file s = (es, .error e)) (hn : ¬ (inPlace.getD false = true ∧ file = none)) : ¬ Crash e := by
  unfold Proc.writeOrPrint at h
  split at h
  · rename_i hi
    cases file with
    | none => exact absurd ⟨hi, rfl⟩ hn
    | some p => exact write_calm h
  · unfold Proc.printLine at h
    rw [hO] at h
    cases h

theorem parseFile_error {P : Proc} {x : Fmt} {s : Str} {e : CliError} (h : P.parseFile x s = .error e) (hc : Crash e) :
    EncFile.textPanics (P.T x) P.O P.env.C s = true := by
  unfold Proc.parseFile at h
  split at h
  · cases h
    by_cases ht : EncFile.textPanics (P.T x) P.O P.env.C s = true
    · exact ht
    · rw [if_neg ht] at hc
      exact hc.elim
  · cases h

theorem readConfig_error {P : Proc} {p : Str} {e : CliError} (h : P.readConfig p = .error e) (hc : Crash e) :
    ∃ b s, P.file p = .data b ∧ utf8? b = some s ∧ Config.textPanics (P.T .toml) P.O s = true := by
  unfold Proc.readConfig at h
  split at h
  · rename_i e' he
    cases h
    exact absurd hc (readFile_calm he)
  · rename_i s hs
    obtain ⟨b, hb, hu⟩ := readFile_ok.1 hs
    split at h
    · cases h
    · cases h
      by_cases ht : Config.textPanics (P.T .toml) P.O s = true
      · exact ⟨b, s, hb, hu, ht⟩
      · rw [if_neg ht] at hc
        exact hc.elim

theorem retrieveConfig_error {P : Proc} {c : Command} {e : CliError} (h : P.retrieveConfig c.configPath = .error e)
    (hc : Crash e) :
    ∃ p b s, ConfigChosen P c p ∧ P.file p = .data b ∧ utf8? b = some s ∧ Config.textPanics (P.T .toml) P.O s = true := by
  have hcfg := h
  unfold Proc.retrieveConfig at h
  split at h
  · rename_i p hp
    obtain ⟨b, s, h1, h2, h3⟩ := readConfig_error h hc
    exact ⟨p, b, s, .inl hp, h1, h2, h3⟩
  · rename_i hn
    split at h
    · rename_i p hp
      obtain ⟨b, s, h1, h2, h3⟩ := readConfig_error h hc
      exact ⟨p, b, s, .inr ⟨hn, .inl hp⟩, h1, h2, h3⟩
    · rename_i hv
      split at h
      · cases h; exact hc.elim
      · rename_i dir hd
        have hl := C42_lookup P dir hd c.configPath
        rw [hcfg, hn, hv] at hl
        simp only [Option.none_or] at hl
        split at hl
        · rename_i p hp
          obtain ⟨b, s, h1, h2, h3⟩ := readConfig_error hl.symm hc
          exact ⟨p, b, s, .inr ⟨hn, .inr ⟨hv, dir, hd, hp⟩⟩, h1, h2, h3⟩
        · cases hl

/-- The input of a command makes it crash: it panics when it is read, or the file in it panics
when it is decrypted. -/
def InputCrashes (P : Proc) (x : Fmt) (s : Str) : Prop :=
  EncFile.textPanics (P.T x) P.O P.env.C s = true ∨
  ∃ f e, EncFile.ofText (P.T x) P.O P.env.C s = some f ∧ f.decrypt x.doc.F P.env = .error e ∧ Panics e

theorem parse_finite {P : Proc} (hT : FiniteTexts (P.T .json)) {x : Fmt} {s : Str} {d : x.doc.F.Map}
    (h : (P.T x).parse s = some d) : FiniteDoc x d := by
  cases x with
  | yaml => exact fun _ _ h => nomatch h
  | toml => exact fun _ _ h => nomatch h
  | json => exact fun m hm _ => hT s d m h hm

theorem addToBuilder_map {F : Format} (k : IntegrationKeys) (b : Builder F) : (k.addToBuilder b).map = b.map := by
  unfold IntegrationKeys.addToBuilder
  rw [addKeys_kms, addKeys_age]

theorem encryptText_calm {P : Proc} (hA : Calm P.env.toKeyEnv) (hT : FiniteTexts (P.T .json)) {x : Fmt} {s : Str} {a : EncryptArgs}
    (ha : ∀ t, a.setting = some t → t.toSetting ≠ none) {i : Nat} {e : CliError}
    (h : P.encryptText x s a i = .error e) : ¬ Crash e := by
  unfold Proc.encryptText at h
  split at h
  · cases h; exact id
  · rename_i map hm
    have hf := parse_finite hT hm
    simp only at h
    split at h
    · rename_i hn
      split at hn
      · cases hn
      · rename_i t ht
        rw [Option.map_eq_none_iff] at hn
        exact absurd hn (ha t ht)
    · rename_i b hb
      have hbm : b.map = map := by
        split at hb
        · cases hb; exact addToBuilder_map _ _
        · rw [Option.map_eq_some_iff] at hb
          obtain ⟨_, _, rfl⟩ := hb
          exact addToBuilder_map _ _
      split at h
      · rename_i e' he
        cases h
        refine builder_calm hA ?_ he
        split
        · exact hbm ▸ hf
        · exact hbm ▸ hf
      · cases h

theorem decryptText_crash {P : Proc} {x : Fmt} {s : Str} {e : CliError} (h : P.decryptText x s = .error e) (hc : Crash e) :
    InputCrashes P x s := by
  unfold Proc.decryptText at h
  split at h
  · rename_i e' he
    cases h
    exact .inl (parseFile_error he hc)
  · rename_i f hf
    split at h
    · rename_i e' he
      cases h
      exact .inr ⟨f, e', parseFile_ok.1 hf, he, hc⟩
    · cases h

theorem ruleBuilder_map {F : Format} (r : CreationRule) (m : F.Map) : (r.builder m).map = m := by
  simp only [CreationRule.builder]
  split <;> split <;> exact addToBuilder_map _ _

theorem refreshWith_crash {P : Proc} (hA : Calm P.env.toKeyEnv) {x : Fmt} {path s : Str} {f : EncFile x.doc.F} {i : Nat}
    {config : Config} {e : CliError} (h : P.refreshWith x path s f i config = .error e) (hc : Crash e) :
    ∃ e, f.decrypt x.doc.F P.env = .error e ∧ Panics e := by
  induction config with
  | nil => cases h
  | cons rule r ih =>
    simp only [Proc.refreshWith] at h
    split at h
    · split at h
      · cases h
      · split at h
        · rename_i e' he
          cases h
          exact ⟨e', he, hc⟩
        · rename_i g hg
          split at h
          · rename_i e' he
            cases h
            refine absurd hc (builder_calm hA ?_ he)
            rw [ruleBuilder_map]
            exact decrypt_finite hg
          · cases h
    · exact ih h

theorem refreshText_crash {P : Proc} (hA : Calm P.env.toKeyEnv) {x : Fmt} {s : Str} {a : PlaceArgs} {i : Nat} {e : CliError}
    {config : Config} (hcfg : P.retrieveConfig a.input.config = .ok config)
    (h : P.refreshText x s a i = .error e) (hc : Crash e) : InputCrashes P x s := by
  unfold Proc.refreshText at h
  rw [hcfg] at h
  simp only at h
  split at h
  · rename_i e' he
    cases h
    exact .inl (parseFile_error he hc)
  · rename_i f hf
    obtain ⟨e', h1, h2⟩ := refreshWith_crash hA h hc
    exact .inr ⟨f, e', parseFile_ok.1 hf, h1, h2⟩

theorem addKeysText_crash {P : Proc} (hA : Calm P.env.toKeyEnv) {x : Fmt} {s : Str} {k : IntegrationKeys} {i : Nat} {e : CliError}
    (h : P.addKeysText x s k i = .error e) (hc : Crash e) : InputCrashes P x s := by
  unfold Proc.addKeysText at h
  split at h
  · rename_i e' he
    cases h
    exact .inl (parseFile_error he hc)
  · split at h
    · rename_i he
      cases h
      exact absurd hc (fileAddKeys_calm hA he)
    · split at h
      · rename_i he
        cases h
        exact absurd hc (fileAddKeys_calm hA he)
      · cases h

theorem removeKeysText_crash {P : Proc} (hA : Calm P.env.toKeyEnv) {x : Fmt} {s : Str} {k : IntegrationKeys} {i : Nat} {e : CliError}
    (h : P.removeKeysText x s k i = .error e) (hc : Crash e) : InputCrashes P x s := by
  unfold Proc.removeKeysText at h
  split at h
  · rename_i e' he
    cases h
    exact .inl (parseFile_error he hc)
  · rename_i f hf
    split at h
    · rename_i e' he
      cases h
      exact .inr ⟨f, e', parseFile_ok.1 hf, he, hc⟩
    · rename_i g hg
      split at h
      · rename_i e' he
        cases h
        have hc : e' = .panic := hc
        subst hc
        exact absurd he (removeKeys_calm hA)
      · rename_i g1 i1 h1
        split at h
        · rename_i e' he
          cases h
          have hc : e' = .panic := hc
          subst hc
          exact absurd he (removeKeys_calm hA)
        · rename_i g2 i2 h2
          split at h
          · rename_i e' he
            cases h
            refine absurd hc (encrypt_calm hA ?_ he)
            rw [removeKeys_map h2, removeKeys_map h1]
            exact decrypt_finite hg
          · cases h

theorem editLoop_crash {P : Proc} {x : Fmt} {temp : Str} {l : List Attempt} {es : List Event} {e : CliError}
    (h : P.editLoop x temp l = (es, .error e)) (hc : Crash e) : Unheard (P.T x).parse l := by
  induction l generalizing es with
  | nil => cases h; exact hc.elim
  | cons a r ih =>
    cases a with
    | notStarted => cases h; exact hc.elim
    | failed => cases h; exact hc.elim
    | left en pressed =>
      simp only [Proc.editLoop] at h
      split at h
      · cases h; exact hc.elim
      · cases h; exact hc.elim
      · split at h
        · cases h; exact hc.elim
        · rename_i b s hu
          split at h
          · cases h
          · rename_i hp
            split at h
            · exact .now hu hp
            · cases h
            · cases h; exact hc.elim
            · cases h' : P.editLoop x temp r with
              | mk es' res =>
                rw [h'] at h
                cases h
                exact .again hu hp (ih h')

theorem editLoop_parsed {P : Proc} {x : Fmt} {temp : Str} {l : List Attempt} {es : List Event} {m : x.doc.F.Map}
    (h : P.editLoop x temp l = (es, .ok (some m))) : ∃ s, (P.T x).parse s = some m := by
  induction l generalizing es with
  | nil => cases h
  | cons a r ih =>
    cases a with
    | notStarted => cases h
    | failed => cases h
    | left en pressed =>
      simp only [Proc.editLoop] at h
      split at h
      · cases h
      · cases h
      · split at h
        · cases h
        · rename_i s _
          split at h
          · rename_i m' hm
            cases h
            exact ⟨s, hm⟩
          · split at h
            · cases h
            · cases h
            · cases h
            · cases h' : P.editLoop x temp r with
              | mk es' res =>
                rw [h'] at h
                cases h
                exact ih h'

theorem withTemp_result {α : Type} (temp : Str) (r : List Event × Except CliError α) : (withTemp temp r).2 = r.2 := by
  unfold withTemp
  split <;> rfl

theorem selectEditor_crash {P : Proc} {e : CliError} (h : P.selectEditor = .error e) (hc : Crash e) :
    (∃ b s, P.editorVar = some b ∧ utf8? b = some s ∧ P.shlex s = some []) ∨
    (P.editorVar = none ∧ ∃ b, fallback P = some b ∧ utf8? b = none) := by
  unfold Proc.selectEditor at h
  rw [findSome_or, show List.findSome? P.which [c!"vim", c!"nano", c!"vi"] = fallback P from rfl] at h
  split at h
  · rename_i b hb
    split at h
    · cases h; exact hc.elim
    · rename_i s hs
      split at h
      · cases h; exact hc.elim
      · rename_i hl; exact .inl ⟨b, s, hb, hs, hl⟩
      · cases h
  · rename_i hv
    split at h
    · cases h; exact hc.elim
    · rename_i b hb
      split at h
      · rename_i hu; exact .inr ⟨hv, b, hb, hu⟩
      · cases h

theorem editSession_crash {P : Proc} {x : Fmt} {map : x.doc.F.Map} {es : List Event} {e : CliError}
    (h : P.editSession x map = (es, .error e)) (hc : Crash e) : EditorCrash P x := by
  unfold Proc.editSession at h
  split at h
  · cases h; exact hc.elim
  · have h := congrArg Prod.snd h
    rw [withTemp_result] at h
    split at h
    · rename_i hw
      cases h
      exact absurd hc (write_calm hw)
    · split at h
      rename_i es' res hr
      simp only at h
      subst h
      unfold Proc.editTemp at hr
      split at hr
      · rename_i he
        cases hr
        rcases selectEditor_crash he hc with h | h
        · exact .inl h
        · exact .inr (.inl h)
      · split at hr
        · exact .inr (.inr (.inr (editLoop_crash hr hc)))
        · rename_i hn
          exact .inr (.inr (.inl (by simpa using hn)))

theorem editSession_parsed {P : Proc} {x : Fmt} {map m : x.doc.F.Map} {es : List Event}
    (h : P.editSession x map = (es, .ok (some m))) : ∃ s, (P.T x).parse s = some m := by
  unfold Proc.editSession at h
  split at h
  · cases h
  · have h := congrArg Prod.snd h
    rw [withTemp_result] at h
    split at h
    · cases h
    · split at h
      rename_i es' res hr
      simp only at h
      subst h
      unfold Proc.editTemp at hr
      split at hr
      · cases hr
      · split at hr
        · exact editLoop_parsed hr
        · cases hr

theorem editFile_crash {P : Proc} (hT : FiniteTexts (P.T .json)) (hO : P.stdout = none) {x : Fmt} {file : Option Str} {i : Nat} {es : List Event}
    {e : CliError} (h : P.editFile x file i = (es, .error e)) (hc : Crash e) :
    (es = [] ∧ ∃ s, InputText P file s ∧ InputCrashes P x s) ∨ Between P es ∧ EditorCrash P x := by
  unfold Proc.editFile at h
  split at h
  · rename_i e' he
    cases h
    exact absurd hc (getInput_calm he (by simp))
  · rename_i s hs
    have hin := (getInput_ok.1 hs).1
    split at h
    · rename_i e' he
      cases h
      exact .inl ⟨rfl, s, hin, .inl (parseFile_error he hc)⟩
    · rename_i f hf
      split at h
      · rename_i e' he
        cases h
        exact .inl ⟨rfl, s, hin, .inr ⟨f, e', parseFile_ok.1 hf, decryptAndSave_panics he hc, hc⟩⟩
      · rename_i g p hg
        split at h
        · rename_i he
          cases h
          refine .inr ⟨?_, editSession_crash he hc⟩
          rcases editSession_shape he with ⟨hb, _⟩ | ⟨_, hk⟩
          · exact hb
          · cases hk; exact hc.elim
        · cases h
        · exfalso
          rename_i es1 m hm
          obtain ⟨t, ht⟩ := editSession_parsed hm
          split at h
          · rename_i e' he
            cases h
            unfold Proc.editedText at he
            split at he
            · rename_i e' he'
              cases he
              exact setMap_calm (parse_finite hT ht) he' hc
            · rename_i g' hg'
              split at he
              · rename_i e' he'
                cases he
                exact encryptWith_calm (setMap_finite hg') he' hc
              · cases he
          · split at h
            · split at h
              rename_i hw
              cases h
              exact write_calm hw hc
            · rename_i hterm
              unfold Proc.getInput at hs
              simp only [Option.getD_none, Bool.false_eq_true, if_false] at hs
              rw [hterm] at hs
              cases hs
            · unfold Proc.printLine at h
              rw [hO] at h
              cases h

theorem textRun_crash {P : Proc} {file : Option Str} {format : Option Fmt} {inPlace : Bool}
    {text : Fmt → Str → Except CliError Str} {es : List Event} {e : CliError} (hO : P.stdout = none)
    (hl : ¬ (inPlace = true ∧ file = none))
    (h : (match getFormat file format with
      | .error e => ([], .error e)
      | .ok x => match P.getInput file (some inPlace) with
        | .error e => ([], .error e)
        | .ok s => match text x s with
          | .error e => ([], .error e)
          | .ok out => P.writeOrPrint (some inPlace) file out : Run) = (es, .error e)) (hc : Crash e) :
    es = [] ∧ ∃ x s, getFormat file format = .ok x ∧ InputText P file s ∧ text x s = .error e := by
  split at h
  · rename_i e' he
    cases h
    exact absurd hc (getFormat_calm he)
  · rename_i x hx
    split at h
    · rename_i e' he
      cases h
      exact absurd hc (getInput_calm he hl)
    · rename_i s hs
      split at h
      · rename_i e' he
        cases h
        exact ⟨rfl, x, s, hx, (getInput_ok.1 hs).1, he⟩
      · exact absurd hc (writeOrPrint_calm hO h hl)

theorem merge_fields (rx : RegexMatch) (a : EncryptArgs) (config : Config) : (a.merge rx config).input = a.input ∧
    (a.merge rx config).inPlace = a.inPlace ∧ ∀ t, (a.merge rx config).setting = some t →
      a.setting = some t ∨ ∃ p, t = SettingArgs.ofSetting p := by
  induction config with
  | nil => exact ⟨rfl, rfl, fun t h => .inl h⟩
  | cons rule r ih =>
    simp only [EncryptArgs.merge]
    split
    · refine ⟨rfl, rfl, ?_⟩
      intro t h
      simp only at h
      split at h
      · rw [Option.map_eq_some_iff] at h
        obtain ⟨p, _, rfl⟩ := h
        exact .inr ⟨p, rfl⟩
      · rename_i hs
        exact .inl (hs.trans h)
    · exact ih

theorem run_crash {P : Proc} (hA : Calm P.env.toKeyEnv) (hT : FiniteTexts (P.T .json)) (hO : P.stdout = none) {c : Command} {i : Nat} {es : List Event}
    {e : CliError} (h : P.run c i = (es, .error e)) (hc : Crash e) :
    es = [] ∧
    ((∃ p b s, ConfigChosen P c p ∧ P.file p = .data b ∧ utf8? b = some s ∧ Config.textPanics (P.T .toml) P.O s = true ∧
        P.retrieveConfig c.configPath = .error e) ∨
      (∀ l, c ≠ .encrypt l) ∧ ∃ x s, getFormat (opens c) (givenFormat c) = .ok x ∧ InputText P (opens c) s ∧
        InputCrashes P x s) ∨
    ∃ a x, c = .edit a ∧ getFormat a.file a.format = .ok x ∧ Between P es ∧ EditorCrash P x := by
  unfold Proc.run at h
  split at h
  · rename_i hacc
    split at h
    · rename_i e' he
      cases h
      obtain ⟨p, b, s, h1, h2, h3, h4⟩ := retrieveConfig_error he hc
      exact .inl ⟨rfl, .inl ⟨p, b, s, h1, h2, h3, h4, he⟩⟩
    · rename_i config hcfg
      cases c with
      | encrypt l =>
        exfalso
        simp only [Proc.dispatch] at h
        split at h
        · cases h; exact hc
        · rename_i a ha
          obtain ⟨_, hn, rfl⟩ := encryptArgs_ok.1 ha
          generalize hm : EncryptArgs.merge _ _ _ = a at h
          obtain ⟨h1, h2, h3⟩ := merge_fields P.env.rx ⟨l.keys, l.setting.map SettingArgs.ofSetting,
            some l.macOnlyEncrypted, l.input, some l.inPlace⟩ config
          rw [hm] at h1 h2 h3
          simp only at h1 h2 h3
          simp only [Proc.encrypt, h1, h2] at h
          obtain ⟨_, x, s, _, _, ht⟩ := textRun_crash hO (text := fun x s => P.encryptText x s a i) hn h hc
          refine encryptText_calm hA hT ?_ ht hc
          intro t ht
          rcases h3 t ht with h | ⟨p, rfl⟩
          · rw [Option.map_eq_some_iff] at h
            obtain ⟨p, _, rfl⟩ := h
            rw [toSetting_ofSetting]; nofun
          · rw [toSetting_ofSetting]; nofun
      | decrypt l =>
        obtain ⟨ha, hn⟩ := accepted_place hacc
        simp only [Proc.dispatch, ha, Proc.decrypt] at h
        obtain ⟨h1, x, s, h2, h3, ht⟩ := textRun_crash hO (text := fun x s => P.decryptText x s) hn h hc
        exact .inl ⟨h1, .inr ⟨nofun, x, s, h2, h3, (decryptText_crash ht hc)⟩⟩
      | refresh l =>
        obtain ⟨ha, hn⟩ := accepted_place hacc
        simp only [Proc.dispatch, ha, Proc.refresh] at h
        obtain ⟨h1, x, s, h2, h3, ht⟩ := textRun_crash hO (text := fun x s => P.refreshText x s ⟨l.input, some l.inPlace⟩ i) hn h hc
        exact .inl ⟨h1, .inr ⟨nofun, x, s, h2, h3, (refreshText_crash hA hcfg ht hc)⟩⟩
      | edit a =>
        simp only [Proc.dispatch, Proc.edit] at h
        split at h
        · rename_i e' he
          cases h
          exact absurd hc (getFormat_calm he)
        · rename_i x hx
          rcases editFile_crash hT hO h hc with ⟨h1, s, h2, h3⟩ | h
          · exact .inl ⟨h1, .inr ⟨nofun, x, s, hx, h2, h3⟩⟩
          · exact .inr ⟨a, x, rfl, hx, h⟩
      | addKeys a =>
        have hk : es = [] ∧ ∃ x s, getFormat (some a.file) a.format = .ok x ∧ InputText P (some a.file) s ∧
            P.addKeysText x s a.keys i = .error e := by
          simp only [Proc.dispatch, Proc.keys] at h
          split at h
          · rename_i e' he
            cases h
            exact absurd hc (getFormat_calm he)
          · rename_i x hx
            split at h
            · rename_i e' he
              cases h
              exact absurd hc (getInput_calm he (by simp))
            · rename_i s hs
              split at h
              · rename_i e' he
                cases h
                exact ⟨rfl, x, s, hx, (getInput_ok.1 hs).1, by simpa using he⟩
              · exact absurd hc (write_calm h)
        obtain ⟨h1, x, s, h2, h3, ht⟩ := hk
        exact .inl ⟨h1, .inr ⟨nofun, x, s, h2, h3, (addKeysText_crash hA ht hc)⟩⟩
      | removeKeys a =>
        have hk : es = [] ∧ ∃ x s, getFormat (some a.file) a.format = .ok x ∧ InputText P (some a.file) s ∧
            P.removeKeysText x s a.keys i = .error e := by
          simp only [Proc.dispatch, Proc.keys] at h
          split at h
          · rename_i e' he
            cases h
            exact absurd hc (getFormat_calm he)
          · rename_i x hx
            split at h
            · rename_i e' he
              cases h
              exact absurd hc (getInput_calm he (by simp))
            · rename_i s hs
              split at h
              · rename_i e' he
                cases h
                exact ⟨rfl, x, s, hx, (getInput_ok.1 hs).1, by simpa using he⟩
              · exact absurd hc (write_calm h)
        obtain ⟨h1, x, s, h2, h3, ht⟩ := hk
        exact .inl ⟨h1, .inr ⟨nofun, x, s, h2, h3, (removeKeysText_crash hA ht hc)⟩⟩
  · cases h; exact hc.elim


end Rops
