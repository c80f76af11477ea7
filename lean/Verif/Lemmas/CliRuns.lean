import Verif.Lemmas.Cli
import Verif.Lemmas.Format
/-! When commands succeed. -/

namespace Rops
open Spec

theorem Spec.docRep_lawful : (x : Fmt) → Format.Lawful x.doc.F (docRep x)
  | .yaml => Format.yaml_lawful
  | .json => Format.json_lawful
  | .toml => Format.toml_lawful

theorem readFile_ok {P : Proc} {p s : Str} : P.readFile p = .ok s ↔ ∃ b, P.file p = .data b ∧ utf8? b = some s := by
  unfold Proc.readFile
  cases P.file p with
  | missing => simp
  | unreadable => simp
  | data b => cases h : utf8? b <;> simp [h]

theorem getInput_ok {P : Proc} {file : Option Str} {inPlace : Option Bool} {s : Str} :
    P.getInput file inPlace = .ok s ↔ InputText P file s ∧ ¬ (inPlace.getD false = true ∧ file = none) := by
  have hpath : ∀ p, P.readFromPath p = .ok s ↔ InputText P (some p) s := by
    intro p
    unfold Proc.readFromPath InputText
    cases P.stdin with
    | piped b => simp
    | terminal => simp [readFile_ok]
  unfold Proc.getInput
  cases file with
  | some p => simp [hpath]
  | none =>
    cases inPlace.getD false with
    | true => simp
    | false =>
      unfold InputText
      cases P.stdin with
      | terminal => simp
      | piped b =>
        cases b with
        | none => simp
        | some b => cases h : utf8? b <;> simp [h]

theorem inputText_unique {P : Proc} {file : Option Str} {s s' : Str} (h : InputText P file s) (h' : InputText P file s') :
    s = s' := by
  have e1 := getInput_ok (inPlace := none).2 ⟨h, by simp⟩
  have e2 := getInput_ok (inPlace := none).2 ⟨h', by simp⟩
  rw [e1] at e2
  cases e2
  rfl

theorem printLine_ok {P : Proc} {out : Str} {es : List Event} :
    P.printLine out = (es, .ok ()) ↔ P.stdout = none ∧ es = [.print (out ++ ['\n'])] := by
  unfold Proc.printLine
  cases P.stdout <;> simp [eq_comm]

theorem writeOrPrint_ok {P : Proc} {inPlace : Bool} {file : Option Str} {out : Str} {es : List Event} :
    P.writeOrPrint (some inPlace) file out = (es, .ok ()) ↔ Delivered P inPlace file out es := by
  unfold Proc.writeOrPrint Delivered
  cases inPlace with
  | false => exact printLine_ok.trans (by simp)
  | true =>
    cases file with
    | none => simp
    | some p =>
      simp only [Option.getD_some, if_true, Proc.write, Prod.mk.injEq]
      constructor
      · rintro ⟨rfl, h⟩
        have hd : P.saves p (utf8 out) = .done := by
          by_cases hd : P.saves p (utf8 out) = .done
          · exact hd
          · rw [if_neg hd] at h; cases h
        exact .inl ⟨trivial, p, rfl, hd, by rw [hd]⟩
      · rintro (⟨_, q, hq, hd, rfl⟩ | ⟨h, _⟩)
        · cases hq; rw [hd]; simp
        · cases h

/-- The configuration found does not depend on other files. -/
theorem retrieveConfig_files {P P' : Proc} {path : Option Str} (hT : P'.T = P.T) (hO : P'.O = P.O)
    (hvar : P'.configVar = P.configVar) (hcwd : P'.cwd = P.cwd) (h1 : ∀ p, path = some p → P'.file p = P.file p)
    (h2 : ∀ p, P.configVar = some p → P'.file p = P.file p)
    (h3 : ∀ dir, P.cwd = some dir → ∀ d ∈ ancestors dir, P'.file (configIn d) = P.file (configIn d)) :
    P'.retrieveConfig path = P.retrieveConfig path := by
  have hread : ∀ p, P'.file p = P.file p → P'.readConfig p = P.readConfig p := by
    intro p hp
    unfold Proc.readConfig Proc.readFile
    rw [hp, hT, hO]
  have htrav : ∀ dir, (∀ d ∈ ancestors dir, P'.file (configIn d) = P.file (configIn d)) → P'.traverse dir = P.traverse dir := by
    intro dir h3
    induction dir with
    | nil =>
      unfold Proc.traverse
      rw [h3 [] (by simp [ancestors]), hread _ (h3 [] (by simp [ancestors]))]
    | cons c r ih =>
      unfold Proc.traverse
      rw [h3 (c :: r) (by simp [ancestors]), hread _ (h3 (c :: r) (by simp [ancestors])),
        ih fun d hd => h3 d (by simp [ancestors, hd])]
  unfold Proc.retrieveConfig
  rw [hvar, hcwd]
  cases path with
  | some p => exact hread p (h1 p rfl)
  | none => cases hv : P.configVar with
    | some p => exact hread p (h2 p hv)
    | none => cases hd : P.cwd with
      | none => rfl
      | some dir => exact htrav dir (h3 dir hd)

theorem ruleFor_nil (rx : RegexMatch) (path : Option Str) : ruleFor rx [] path = none := rfl

theorem ruleFor_cons (rx : RegexMatch) (r : CreationRule) (c : Config) (path : Option Str) :
    ruleFor rx (r :: c) path = if rx r.pathRegex (path.getD []) then some r else ruleFor rx c path := by
  unfold ruleFor
  rw [List.find?_cons]
  cases rx r.pathRegex (path.getD []) <;> rfl

/-- What a command line and a rule make of the arguments. -/
theorem merge_eq (rx : RegexMatch) (a : EncryptArgs) (config : Config) :
    a.merge rx config =
      { a with
        keys := a.keys.merge (ruleKeys (ruleFor rx config a.input.file))
        macOnlyEncrypted := a.macOnlyEncrypted.or ((ruleFor rx config a.input.file).bind CreationRule.macOnlyEncrypted)
        setting := a.setting.or (((ruleFor rx config a.input.file).bind CreationRule.partialEncryption).map SettingArgs.ofSetting) } := by
  induction config with
  | nil =>
    obtain ⟨⟨ka, kk⟩, st, mo, inp, ip⟩ := a
    simp only [EncryptArgs.merge, ruleFor_nil, ruleKeys, IntegrationKeys.merge, List.append_nil, Option.bind_none,
      Option.map_none, Option.or_none]
  | cons r c ih =>
    rw [EncryptArgs.merge, ruleFor_cons]
    split
    · simp only [ruleKeys, Option.bind_some]
      cases a.setting <;> cases a.macOnlyEncrypted <;> rfl
    · exact ih

theorem toSetting_ofSetting (p : PartialEncryption) : (SettingArgs.ofSetting p).toSetting = some p := by
  cases p <;> rfl

theorem addKeys_age {F : Format} (b : Builder F) (ids : List (Kind.Id .age)) :
    b.addKeys .age ids = { b with ageKeyIds := b.ageKeyIds ++ ids } := by
  induction ids generalizing b with
  | nil => simp [Builder.addKeys]
  | cons x r ih =>
    have : b.addKeys .age (x :: r) = (b.addKey .age x).addKeys .age r := rfl
    rw [this, ih]
    simp [Builder.addKey]

theorem addKeys_kms {F : Format} (b : Builder F) (ids : List (Kind.Id .kms)) :
    b.addKeys .kms ids = { b with kmsKeyIds := b.kmsKeyIds ++ ids } := by
  induction ids generalizing b with
  | nil => simp [Builder.addKeys]
  | cons x r ih =>
    have : b.addKeys .kms (x :: r) = (b.addKey .kms x).addKeys .kms r := rfl
    rw [this, ih]
    simp [Builder.addKey]

theorem addToBuilder_fromMap {F : Format} (k : IntegrationKeys) (m : F.Map) :
    k.addToBuilder (Builder.fromMap m) = { map := m, partialEncryption := none, macOnlyEncrypted := none
                                           ageKeyIds := k.age, kmsKeyIds := k.kms } := by
  unfold IntegrationKeys.addToBuilder
  rw [addKeys_age, addKeys_kms]
  rfl

theorem encryptText_ok {P : Proc} {x : Fmt} {s out : Str} {a : EncryptArgs} {p : Option PartialEncryption} {i : Nat}
    (hs : a.setting = p.map SettingArgs.ofSetting) :
    P.encryptText x s a i = .ok out ↔ ∃ map f j, (P.T x).parse s = some map ∧
      Builder.encrypt P.env { map, partialEncryption := p
                              macOnlyEncrypted := if a.macOnlyEncrypted.getD false then some true else none
                              ageKeyIds := a.keys.age, kmsKeyIds := a.keys.kms } i = .ok (f, j) ∧
      out = EncFile.toText (P.T x) P.env.C f := by
  unfold Proc.encryptText
  cases hm : (P.T x).parse s with
  | none => simp
  | some map =>
    simp only [hs, addToBuilder_fromMap, Option.some.injEq]
    have key : (match Builder.encrypt P.env
          (if a.macOnlyEncrypted.getD false = true then
            Builder.setMacOnlyEncrypted ({ map, partialEncryption := p, macOnlyEncrypted := none, ageKeyIds := a.keys.age,
                                           kmsKeyIds := a.keys.kms } : Builder x.doc.F)
          else { map, partialEncryption := p, macOnlyEncrypted := none, ageKeyIds := a.keys.age, kmsKeyIds := a.keys.kms }) i with
        | .error e => .error (CliError.builder e)
        | .ok (f, _) => .ok (EncFile.toText (P.T x) P.env.C f)) = Except.ok out ↔
        ∃ map' f j, map = map' ∧
          Builder.encrypt P.env { map := map', partialEncryption := p
                                  macOnlyEncrypted := if a.macOnlyEncrypted.getD false then some true else none
                                  ageKeyIds := a.keys.age, kmsKeyIds := a.keys.kms } i = .ok (f, j) ∧
          out = EncFile.toText (P.T x) P.env.C f := by
      have hb2 : (if a.macOnlyEncrypted.getD false = true then
            Builder.setMacOnlyEncrypted ({ map, partialEncryption := p, macOnlyEncrypted := none, ageKeyIds := a.keys.age,
                                           kmsKeyIds := a.keys.kms } : Builder x.doc.F)
          else { map, partialEncryption := p, macOnlyEncrypted := none, ageKeyIds := a.keys.age, kmsKeyIds := a.keys.kms }) =
          { map, partialEncryption := p, macOnlyEncrypted := if a.macOnlyEncrypted.getD false then some true else none
            ageKeyIds := a.keys.age, kmsKeyIds := a.keys.kms } := by
        split <;> rfl
      rw [hb2]
      constructor
      · intro h
        split at h
        · cases h
        · rename_i f j hf
          cases h
          exact ⟨map, f, j, rfl, hf, rfl⟩
      · rintro ⟨_, f, j, rfl, hf, rfl⟩
        rw [hf]
    cases p with
    | none => exact key
    | some p => simp only [Option.map_some, toSetting_ofSetting]; exact key

theorem encryptArgs_ok {l : EncryptLine} {a : EncryptArgs} : l.args = some a ↔
    ¬ (l.macOnlyEncrypted = true ∧ l.setting = none) ∧ ¬ (l.inPlace = true ∧ l.input.file = none) ∧
    a = { keys := l.keys, setting := l.setting.map SettingArgs.ofSetting, macOnlyEncrypted := some l.macOnlyEncrypted
          input := l.input, inPlace := some l.inPlace } := by
  unfold EncryptLine.args setTrue
  cases l.macOnlyEncrypted <;> cases l.setting <;> cases l.inPlace <;> cases l.input.file <;> simp [eq_comm]

theorem placeArgs_ok {l : PlaceLine} {a : PlaceArgs} : l.args = some a ↔
    ¬ (l.inPlace = true ∧ l.input.file = none) ∧ a = { input := l.input, inPlace := some l.inPlace } := by
  unfold PlaceLine.args setTrue
  cases l.inPlace <;> cases l.input.file <;> simp [eq_comm]

/-- The run of a command with a text, once the arguments are accepted. -/
theorem textRun_ok {P : Proc} {input : InputArgs} {inPlace : Bool} {text : Fmt → Str → Except CliError Str} {es : List Event}
    (hl : ¬ (inPlace = true ∧ input.file = none)) :
    (match getFormat input.file input.format with
      | .error e => ([], .error e)
      | .ok x => match P.getInput input.file (some inPlace) with
        | .error e => ([], .error e)
        | .ok s => match text x s with
          | .error e => ([], .error e)
          | .ok out => P.writeOrPrint (some inPlace) input.file out : Run) = (es, .ok ()) ↔
    ∃ x s out, getFormat input.file input.format = .ok x ∧ InputText P input.file s ∧ text x s = .ok out ∧
      Delivered P inPlace input.file out es := by
  have hin : ∀ s, P.getInput input.file (some inPlace) = .ok s ↔ InputText P input.file s := by
    intro s
    rw [getInput_ok]
    exact ⟨fun h => h.1, fun h => ⟨h, hl⟩⟩
  constructor
  · intro h
    split at h
    · cases h
    · rename_i x hx
      split at h
      · cases h
      · rename_i s hs
        split at h
        · cases h
        · rename_i out ho
          exact ⟨x, s, out, hx, (hin s).1 hs, ho, writeOrPrint_ok.1 h⟩
  · rintro ⟨x, s, out, hx, hs, ho, hd⟩
    simp only [hx, (hin s).2 hs, ho]
    exact writeOrPrint_ok.2 hd

theorem run_encrypt (P : Proc) (l : EncryptLine) (i : Nat) : P.run (.encrypt l) i =
    match l.args with
    | none => ([], .error .usage)
    | some a => match P.retrieveConfig l.input.config with
      | .error e => ([], .error e)
      | .ok config => P.encrypt (a.merge P.env.rx config) i := by
  unfold Proc.run
  rw [show (Command.encrypt l).accepted = l.args.isSome from rfl]
  cases h : l.args with
  | none => rfl
  | some a =>
    simp only [Option.isSome_some, if_true, Command.configPath, Proc.dispatch, h]
    cases P.retrieveConfig l.input.config <;> rfl

theorem run_decrypt (P : Proc) (l : PlaceLine) (i : Nat) : P.run (.decrypt l) i =
    match l.args with
    | none => ([], .error .usage)
    | some a => match P.retrieveConfig l.input.config with
      | .error e => ([], .error e)
      | .ok _ => P.decrypt a := by
  unfold Proc.run
  rw [show (Command.decrypt l).accepted = l.args.isSome from rfl]
  cases h : l.args with
  | none => rfl
  | some a =>
    simp only [Option.isSome_some, if_true, Command.configPath, Proc.dispatch, h]
    cases P.retrieveConfig l.input.config <;> rfl

theorem run_refresh (P : Proc) (l : PlaceLine) (i : Nat) : P.run (.refresh l) i =
    match l.args with
    | none => ([], .error .usage)
    | some a => match P.retrieveConfig l.input.config with
      | .error e => ([], .error e)
      | .ok _ => P.refresh a i := by
  unfold Proc.run
  rw [show (Command.refresh l).accepted = l.args.isSome from rfl]
  cases h : l.args with
  | none => rfl
  | some a =>
    simp only [Option.isSome_some, if_true, Command.configPath, Proc.dispatch, h]
    cases P.retrieveConfig l.input.config <;> rfl

/-- When `rops encrypt` succeeds. -/
theorem run_encrypt_ok {P : Proc} {l : EncryptLine} {i : Nat} {es : List Event} :
    P.run (.encrypt l) i = (es, .ok ()) ↔
    ¬ (l.macOnlyEncrypted = true ∧ l.setting = none) ∧ ¬ (l.inPlace = true ∧ l.input.file = none) ∧
    ∃ config x s map f j, P.retrieveConfig l.input.config = .ok config ∧ getFormat l.input.file l.input.format = .ok x ∧
      InputText P l.input.file s ∧ (P.T x).parse s = some map ∧
      Builder.encrypt P.env
        { map
          partialEncryption := l.setting.or ((ruleFor P.env.rx config l.input.file).bind CreationRule.partialEncryption)
          macOnlyEncrypted := if l.macOnlyEncrypted then some true else none
          ageKeyIds := l.keys.age ++ (ruleKeys (ruleFor P.env.rx config l.input.file)).age
          kmsKeyIds := l.keys.kms ++ (ruleKeys (ruleFor P.env.rx config l.input.file)).kms } i = .ok (f, j) ∧
      Delivered P l.inPlace l.input.file (EncFile.toText (P.T x) P.env.C f) es := by
  rw [run_encrypt]
  cases hl : l.args with
  | none =>
    simp only
    constructor
    · intro h; cases h
    · rintro ⟨h1, h2, _⟩
      rw [encryptArgs_ok.2 ⟨h1, h2, rfl⟩] at hl
      cases hl
  | some a =>
    obtain ⟨h1, h2, ha⟩ := encryptArgs_ok.1 hl
    simp only
    have key : ∀ config, P.encrypt (a.merge P.env.rx config) i = (es, .ok ()) ↔
        ∃ x s map f j, getFormat l.input.file l.input.format = .ok x ∧
      InputText P l.input.file s ∧ (P.T x).parse s = some map ∧
      Builder.encrypt P.env
        { map
          partialEncryption := l.setting.or ((ruleFor P.env.rx config l.input.file).bind CreationRule.partialEncryption)
          macOnlyEncrypted := if l.macOnlyEncrypted then some true else none
          ageKeyIds := l.keys.age ++ (ruleKeys (ruleFor P.env.rx config l.input.file)).age
          kmsKeyIds := l.keys.kms ++ (ruleKeys (ruleFor P.env.rx config l.input.file)).kms } i = .ok (f, j) ∧
      Delivered P l.inPlace l.input.file (EncFile.toText (P.T x) P.env.C f) es := by
      intro config
      have hinput : (a.merge P.env.rx config).input = l.input := by rw [merge_eq, ha]
      have hplace : (a.merge P.env.rx config).inPlace = some l.inPlace := by rw [merge_eq, ha]
      unfold Proc.encrypt
      rw [hinput, hplace]
      refine Iff.trans (textRun_ok (P := P) (input := l.input) (text := fun x s => P.encryptText x s (a.merge P.env.rx config) i) h2) ?_
      have htext : ∀ x s out, P.encryptText x s (a.merge P.env.rx config) i = .ok out ↔ _ := fun x s out =>
        encryptText_ok (P := P) (x := x) (s := s) (out := out) (i := i) (a := a.merge P.env.rx config)
          (p := l.setting.or ((ruleFor P.env.rx config l.input.file).bind CreationRule.partialEncryption)) (by
            rw [merge_eq, ha]
            cases l.setting <;> rfl)
      have hk : (a.merge P.env.rx config).keys = l.keys.merge (ruleKeys (ruleFor P.env.rx config l.input.file)) := by
        rw [merge_eq, ha]
      have hmo : (a.merge P.env.rx config).macOnlyEncrypted = some l.macOnlyEncrypted := by rw [merge_eq, ha]; rfl
      simp only [hk, hmo, IntegrationKeys.merge, Option.getD_some] at htext
      constructor
      · rintro ⟨x, s, out, hx, hs, ho, hd⟩
        obtain ⟨map, f, j, h3, h4, rfl⟩ := (htext x s out).1 ho
        exact ⟨x, s, map, f, j, hx, hs, h3, h4, hd⟩
      · rintro ⟨x, s, map, f, j, hx, hs, h3, h4, hd⟩
        exact ⟨x, s, _, hx, hs, (htext x s _).2 ⟨map, f, j, h3, h4, rfl⟩, hd⟩
    constructor
    · intro h
      split at h
      · cases h
      · rename_i config hc
        exact ⟨h1, h2, config, by
          obtain ⟨x, s, map, f, j, h⟩ := (key config).1 h
          exact ⟨x, s, map, f, j, hc, h⟩⟩
    · rintro ⟨_, _, config, x, s, map, f, j, hc, h⟩
      rw [hc]
      exact (key config).2 ⟨x, s, map, f, j, h⟩

theorem parseFile_ok {P : Proc} {x : Fmt} {s : Str} {f : EncFile x.doc.F} :
    P.parseFile x s = .ok f ↔ EncFile.ofText (P.T x) P.O P.env.C s = some f := by
  unfold Proc.parseFile
  cases EncFile.ofText (P.T x) P.O P.env.C s <;> simp

theorem decryptText_ok {P : Proc} {x : Fmt} {s out : Str} : P.decryptText x s = .ok out ↔
    ∃ (f : EncFile x.doc.F) (g : DecFile x.doc.F), EncFile.ofText (P.T x) P.O P.env.C s = some f ∧
      f.decrypt x.doc.F P.env = .ok g ∧ out = (P.T x).render g.map := by
  unfold Proc.decryptText
  constructor
  · intro h
    split at h
    · cases h
    · rename_i f hf
      split at h
      · cases h
      · rename_i g hg
        cases h
        exact ⟨f, g, parseFile_ok.1 hf, hg, rfl⟩
  · rintro ⟨f, g, hf, hg, rfl⟩
    rw [parseFile_ok.2 hf]
    simp only [hg]

/-- When `rops decrypt` succeeds. -/
theorem run_decrypt_ok {P : Proc} {l : PlaceLine} {i : Nat} {es : List Event} :
    P.run (.decrypt l) i = (es, .ok ()) ↔
    ¬ (l.inPlace = true ∧ l.input.file = none) ∧ (∃ config, P.retrieveConfig l.input.config = .ok config) ∧
    ∃ (x : Fmt) (s : Str) (f : EncFile x.doc.F) (g : DecFile x.doc.F), getFormat l.input.file l.input.format = .ok x ∧
      InputText P l.input.file s ∧ EncFile.ofText (P.T x) P.O P.env.C s = some f ∧ f.decrypt x.doc.F P.env = .ok g ∧
      Delivered P l.inPlace l.input.file ((P.T x).render g.map) es := by
  rw [run_decrypt]
  cases hl : l.args with
  | none =>
    simp only
    constructor
    · intro h; cases h
    · rintro ⟨h1, _⟩
      rw [placeArgs_ok.2 ⟨h1, rfl⟩] at hl
      cases hl
  | some a =>
    obtain ⟨h1, rfl⟩ := placeArgs_ok.1 hl
    simp only
    have key : P.decrypt { input := l.input, inPlace := some l.inPlace } = (es, .ok ()) ↔ _ :=
      textRun_ok (text := P.decryptText) h1
    cases hc : P.retrieveConfig l.input.config with
    | error e =>
      simp only
      constructor
      · intro h; cases h
      · rintro ⟨_, ⟨_, h⟩, _⟩; cases h
    | ok config =>
      simp only [key]
      constructor
      · rintro ⟨x, s, out, hx, hs, ho, hd⟩
        obtain ⟨f, g, hf, hg, rfl⟩ := decryptText_ok.1 ho
        exact ⟨h1, ⟨_, rfl⟩, x, s, f, g, hx, hs, hf, hg, hd⟩
      · rintro ⟨_, _, x, s, f, g, hx, hs, hf, hg, hd⟩
        exact ⟨x, s, _, hx, hs, decryptText_ok.2 ⟨f, g, hf, hg, rfl⟩, hd⟩

theorem identicalKeys_iff {α : Type} [DecidableEq α] (a b : List α) : identicalKeys a b = true ↔ ∀ x, x ∈ a ↔ x ∈ b := by
  unfold identicalKeys
  rw [List.isEmpty_iff, List.append_eq_nil_iff, List.filter_eq_nil_iff, List.filter_eq_nil_iff]
  simp only [Bool.not_eq_true', Bool.not_eq_false, List.contains_iff_mem]
  exact ⟨fun h x => ⟨h.1 x, h.2 x⟩, fun h => ⟨fun x => (h x).1, fun x => (h x).2⟩⟩

theorem implies_iff {M : Type} (r : CreationRule) (md : Metadata M) : r.implies md = true ↔ Describes r md := by
  unfold CreationRule.implies IntegrationKeys.implies Describes
  rw [Bool.and_eq_true, Bool.and_eq_true, Bool.and_eq_true, beq_iff_eq, beq_iff_eq, identicalKeys_iff, identicalKeys_iff,
    and_assoc]
  rfl

theorem rule_builder {F : Format} (r : CreationRule) (map : F.Map) : r.builder map =
    { map, partialEncryption := r.partialEncryption
      macOnlyEncrypted := if r.macOnlyEncrypted = some true then some true else none
      ageKeyIds := r.keys.age, kmsKeyIds := r.keys.kms } := by
  unfold CreationRule.builder
  rw [addToBuilder_fromMap]
  obtain ⟨_, mo, pe, _⟩ := r
  cases pe <;> rcases mo with _ | _ | _ <;> rfl

/-- When `rops refresh` succeeds. -/
theorem refreshWith_ok {P : Proc} {x : Fmt} {file : Option Str} {s out : Str} {f : EncFile x.doc.F} {i : Nat} {config : Config} :
    P.refreshWith x (file.getD []) s f i config = .ok out ↔
    ((∀ r, ruleFor P.env.rx config file = some r → Describes r f.metadata) ∧ out = s) ∨
    ∃ r, ruleFor P.env.rx config file = some r ∧ ¬ Describes r f.metadata ∧
      ∃ (g : DecFile x.doc.F) (f' : EncFile x.doc.F) (j : Nat), f.decrypt x.doc.F P.env = .ok g ∧
      Builder.encrypt P.env { map := g.map, partialEncryption := r.partialEncryption
                              macOnlyEncrypted := if r.macOnlyEncrypted = some true then some true else none
                              ageKeyIds := r.keys.age, kmsKeyIds := r.keys.kms } i = .ok (f', j) ∧
      out = EncFile.toText (P.T x) P.env.C f' := by
  induction config with
  | nil => simp [Proc.refreshWith, ruleFor_nil, eq_comm]
  | cons r c ih =>
    rw [Proc.refreshWith, ruleFor_cons]
    split
    · by_cases hd : Describes r f.metadata
      · rw [if_pos ((implies_iff _ _).2 hd)]
        constructor
        · intro h; cases h; exact .inl ⟨fun r' h => by cases h; exact hd, rfl⟩
        · rintro (⟨_, rfl⟩ | ⟨r', h1, h2, _⟩)
          · rfl
          · cases h1; exact absurd hd h2
      · rw [if_neg (fun h => hd ((implies_iff _ _).1 h))]
        constructor
        · intro h
          split at h
          · cases h
          · rename_i g hg
            split at h
            · cases h
            · rename_i f' j hf'
              rw [rule_builder] at hf'
              cases h
              exact .inr ⟨r, rfl, hd, g, f', j, hg, hf', rfl⟩
        · rintro (⟨h, _⟩ | ⟨r', h1, _, g, f', j, hg, hf', rfl⟩)
          · exact absurd (h r rfl) hd
          · cases h1
            rw [hg]
            simp only [rule_builder, hf']
    · exact ih

theorem run_refresh_ok {P : Proc} {l : PlaceLine} {i : Nat} {es : List Event} :
    P.run (.refresh l) i = (es, .ok ()) ↔
    ¬ (l.inPlace = true ∧ l.input.file = none) ∧
    ∃ (config : Config) (x : Fmt) (s : Str) (f : EncFile x.doc.F) (out : Str), P.retrieveConfig l.input.config = .ok config ∧
      getFormat l.input.file l.input.format = .ok x ∧
      InputText P l.input.file s ∧ EncFile.ofText (P.T x) P.O P.env.C s = some f ∧
      P.refreshWith x (l.input.file.getD []) s f i config = .ok out ∧ Delivered P l.inPlace l.input.file out es := by
  rw [run_refresh]
  cases hl : l.args with
  | none =>
    simp only
    constructor
    · intro h; cases h
    · rintro ⟨h1, _⟩
      rw [placeArgs_ok.2 ⟨h1, rfl⟩] at hl
      cases hl
  | some a =>
    obtain ⟨h1, rfl⟩ := placeArgs_ok.1 hl
    simp only
    have key : P.refresh { input := l.input, inPlace := some l.inPlace } i = (es, .ok ()) ↔ _ :=
      textRun_ok (text := fun x s => P.refreshText x s { input := l.input, inPlace := some l.inPlace } i) h1
    cases hc : P.retrieveConfig l.input.config with
    | error e =>
      simp only
      constructor
      · intro h; cases h
      · rintro ⟨_, _, _, _, _, _, h, _⟩; cases h
    | ok config =>
      simp only [key]
      unfold Proc.refreshText
      simp only [hc]
      constructor
      · rintro ⟨x, s, out, hx, hs, ho, hd⟩
        split at ho
        · cases ho
        · rename_i f hf
          exact ⟨h1, config, x, s, f, out, rfl, hx, hs, parseFile_ok.1 hf, ho, hd⟩
      · rintro ⟨_, _, x, s, f, out, hcc, hx, hs, hf, ho, hd⟩
        cases hcc
        refine ⟨x, s, out, hx, hs, ?_, hd⟩
        rw [parseFile_ok.2 hf]
        exact ho

/-! ## Editing -/

theorem editLoop_cancelled {P : Proc} {x : Fmt} {t : Str} {l : List Attempt} (h : Cancelled (P.T x).parse l) :
    (P.editLoop x t l).2 = .ok none := by
  induction h with
  | now hu hp => simp only [Proc.editLoop, hu, hp]
  | again hu hp _ ih => simp only [Proc.editLoop, hu, hp]; exact ih

theorem editLoop_edited {P : Proc} {x : Fmt} {t : Str} {m : x.doc.F.Map} {l : List Attempt} (h : Edited (P.T x).parse m l) :
    (P.editLoop x t l).2 = .ok (some m) := by
  induction h with
  | now hu hp => simp only [Proc.editLoop, hu, hp]
  | again hu hp _ ih => simp only [Proc.editLoop, hu, hp]; exact ih

theorem withTemp_snd {α : Type} (t : Str) (r : List Event × Except CliError α) : (withTemp t r).2 = r.2 := by
  unfold withTemp
  split <;> simp_all

theorem findSome_or {α β : Type} (f : α → Option β) (a b c : α) :
    ((f a).or (f b)).or (f c) = [a, b, c].findSome? f := by
  simp only [List.findSome?]
  cases f a <;> cases f b <;> cases f c <;> rfl

theorem selectEditor_ok {P : Proc} : EditorReady P ↔ (∃ r, P.selectEditor = .ok r) ∧ P.handlerSet = true := by
  unfold EditorReady Proc.selectEditor
  rw [findSome_or]
  refine and_congr_left fun _ => ?_
  rw [show List.findSome? P.which [c!"vim", c!"nano", c!"vi"] = fallback P from rfl]
  cases hv : P.editorVar with
  | some b =>
    cases hu : utf8? b with
    | none => simp [hu]
    | some s =>
      cases hs : P.shlex s with
      | none => simp [hu, hs]
      | some l => cases l <;> simp [hu, hs]
  | none =>
    cases hf : fallback P with
    | none => simp
    | some b => cases hu : utf8? b <;> simp [hu]

theorem selectEditor_ne_killed {P : Proc} {e : CliError} (h : P.selectEditor = .error e) : e ≠ .killed := by
  unfold Proc.selectEditor at h
  repeat' split at h
  all_goals first | (cases h; done) | (cases h; simp)

/-- A session ends as its loop does, unless there is an error before. -/
theorem editSession_snd {P : Proc} {x : Fmt} {map : x.doc.F.Map} {r : Except CliError (Option x.doc.F.Map)}
    (hr : ∀ t, (P.editLoop x t P.editor).2 = r) :
    (P.editSession x map).2 = r ∨ ∃ e, (P.editSession x map).2 = .error e ∧ e ≠ .killed := by
  unfold Proc.editSession
  cases P.temp with
  | none => exact .inr ⟨_, rfl, by simp⟩
  | some t =>
    simp only [withTemp_snd]
    unfold Proc.write
    by_cases hd : P.saves t (utf8 ((P.T x).render map)) = .done
    · simp only [hd, if_true]
      unfold Proc.editTemp
      split
      · exact .inr ⟨_, rfl, selectEditor_ne_killed (by assumption)⟩
      · split
        · exact .inl (hr t)
        · exact .inr ⟨_, rfl, by simp⟩
    · simp only [if_neg hd]
      exact .inr ⟨_, rfl, by simp⟩

/-- A session for which nothing goes wrong before the editor is started. -/
theorem editSession_started {P : Proc} {x : Fmt} {map : x.doc.F.Map} {t : Str} (ht : P.temp = some t)
    (hw : P.saves t (utf8 ((P.T x).render map)) = .done) (he : EditorReady P) :
    (P.editSession x map).2 = (P.editLoop x t P.editor).2 := by
  obtain ⟨⟨r, hr⟩, hh⟩ := selectEditor_ok.1 he
  unfold Proc.editSession
  simp only [ht, withTemp_snd, Proc.write, hw, if_true, Proc.editTemp, hr, hh]

theorem run_edit (P : Proc) (a : InputArgs) (i : Nat) : P.run (.edit a) i =
    match P.retrieveConfig a.config with
    | .error e => ([], .error e)
    | .ok _ => P.edit a i := by
  unfold Proc.run
  simp only [Command.accepted, if_true, Command.configPath, Proc.dispatch]
  cases P.retrieveConfig a.config <;> rfl

theorem run_edit_error {P : Proc} {a : InputArgs} {i : Nat} {es : List Event} {config : Config} {x : Fmt} {s : Str}
    {f : EncFile x.doc.F} {g : DecFile x.doc.F} {p : SavedParameters} {e : CliError}
    (hc : P.retrieveConfig a.config = .ok config) (hx : getFormat a.file a.format = .ok x) (hs : InputText P a.file s)
    (hf : EncFile.ofText (P.T x) P.O P.env.C s = some f) (hg : f.decryptAndSave x.doc.F P.env = .ok (g, p))
    (he : P.editSession x g.map = (es, .error e)) : P.run (.edit a) i = (es, .error e) := by
  rw [run_edit, hc]
  simp only [Proc.edit, hx, Proc.editFile, getInput_ok.2 ⟨hs, show ¬ ((none : Option Bool).getD false = true ∧ a.file = none) by simp⟩,
    parseFile_ok.2 hf, hg, he]

/-- When `rops edit` succeeds. -/
theorem run_edit_ok {P : Proc} {a : InputArgs} {i : Nat} {es : List Event} :
    P.run (.edit a) i = (es, .ok ()) ↔ (∃ config, P.retrieveConfig a.config = .ok config) ∧
    ∃ (x : Fmt) (s : Str) (f : EncFile x.doc.F) (g : DecFile x.doc.F) (p : SavedParameters),
      getFormat a.file a.format = .ok x ∧ InputText P a.file s ∧ EncFile.ofText (P.T x) P.O P.env.C s = some f ∧
      f.decryptAndSave x.doc.F P.env = .ok (g, p) ∧
      (P.editSession x g.map = (es, .ok none) ∨
        ∃ m out es1 es2, P.editSession x g.map = (es1, .ok (some m)) ∧ P.editedText x g p m i = .ok out ∧
          es = es1 ++ es2 ∧ Delivered P (P.stdin == .terminal) a.file out es2) := by
  rw [run_edit]
  cases hc : P.retrieveConfig a.config with
  | error e =>
    simp only
    constructor
    · intro h; cases h
    · rintro ⟨⟨_, h⟩, _⟩; cases h
  | ok config =>
    simp only
    unfold Proc.edit Proc.editFile
    constructor
    · intro h
      refine ⟨⟨_, rfl⟩, ?_⟩
      split at h
      · cases h
      rename_i x hx
      split at h
      · cases h
      rename_i s hs
      split at h
      · cases h
      rename_i f hf
      split at h
      · cases h
      rename_i g p hg
      refine ⟨x, s, f, g, p, hx, (getInput_ok.1 hs).1, parseFile_ok.1 hf, hg, ?_⟩
      split at h
      · cases h
      · rename_i es1 h1
        cases h
        exact .inl h1
      · rename_i es1 m h1
        split at h
        · cases h
        rename_i out ho
        refine .inr ⟨m, out, es1, ?_⟩
        split at h
        · rename_i file hst hfile
          have hw : P.writeOrPrint (some true) (some file) out = P.write file out := rfl
          simp only [Prod.mk.injEq] at h
          obtain ⟨rfl, h⟩ := h
          refine ⟨(P.write file out).1, h1, ho, rfl, ?_⟩
          rw [hst, hfile]
          show Delivered P true _ _ _
          exact writeOrPrint_ok.1 (hw.trans (Prod.ext rfl h))
        · cases h
        · rename_i b _ hst
          rw [hst]
          simp only [Prod.mk.injEq] at h
          obtain ⟨rfl, h⟩ := h
          obtain ⟨h2, h3⟩ := printLine_ok.1 (Prod.ext rfl h)
          exact ⟨_, h1, ho, rfl, .inr ⟨rfl, h2, h3⟩⟩
    · rintro ⟨_, x, s, f, g, p, hx, hs, hf, hg, h⟩
      have hs' : P.getInput a.file none = .ok s := getInput_ok.2 ⟨hs, by simp⟩
      simp only [hx, hs', parseFile_ok.2 hf, hg]
      rcases h with h | ⟨m, out, es1, es2, h, ho, rfl, hd⟩
      · simp only [h]
      · simp only [h, ho]
        rcases hd with ⟨ht, q, hq, hsv, rfl⟩ | ⟨ht, hso, rfl⟩
        · have hst : P.stdin = .terminal := by simpa using ht
          rw [hst, hq]
          simp only [Proc.write, hsv, if_true]
        · cases hst : P.stdin with
          | terminal => rw [hst] at ht; cases ht
          | piped b => simp only [printLine_ok.2 ⟨hso, rfl⟩]

/-! ## Standard output that fails -/

/-- The process, with a standard output that works. -/
def Proc.piping (P : Proc) : Proc := { P with stdout := none }

/-- What a run gives on a standard output that fails. -/
def CutRun (n : Nat) (full run : Run) : Prop :=
  run = full ∨ ∃ es t, full = (es ++ [.print t], .ok ()) ∧ run = (es ++ [.print (t.take n)], .error .panic)

theorem cut_printLine {P : Proc} {n : Nat} (h : P.stdout = some n) (s : Str) :
    CutRun n (P.piping.printLine s) (P.printLine s) :=
  .inr ⟨[], s ++ ['\n'], rfl, by unfold Proc.printLine; rw [h]; rfl⟩

theorem cut_writeOrPrint {P : Proc} {n : Nat} (h : P.stdout = some n) (inPlace : Option Bool) (file : Option Str) (s : Str) :
    CutRun n (P.piping.writeOrPrint inPlace file s) (P.writeOrPrint inPlace file s) := by
  unfold Proc.writeOrPrint
  split
  · cases file <;> exact .inl rfl
  · exact cut_printLine h s

theorem piping_editLoop (P : Proc) (x : Fmt) (t : Str) (l : List Attempt) : P.piping.editLoop x t l = P.editLoop x t l := by
  induction l with
  | nil => rfl
  | cons a r ih =>
    cases a with
    | notStarted => rfl
    | failed => rfl
    | left e k =>
      simp only [Proc.editLoop, ih]
      rfl

theorem piping_editSession (P : Proc) (x : Fmt) (m : x.doc.F.Map) : P.piping.editSession x m = P.editSession x m := by
  have h : ∀ t, P.piping.editTemp x t = P.editTemp x t := by
    intro t
    unfold Proc.editTemp
    rw [piping_editLoop]
    rfl
  unfold Proc.editSession
  simp only [h]
  rfl

theorem cut_textRun {P : Proc} {n : Nat} (h : P.stdout = some n) {file : Option Str} {format : Option Fmt} {inPlace : Option Bool}
    {text : Fmt → Str → Except CliError Str} :
    CutRun n
      (match getFormat file format with
        | .error e => ([], .error e)
        | .ok x => match P.getInput file inPlace with
          | .error e => ([], .error e)
          | .ok s => match text x s with
            | .error e => ([], .error e)
            | .ok out => P.piping.writeOrPrint inPlace file out : Run)
      (match getFormat file format with
        | .error e => ([], .error e)
        | .ok x => match P.getInput file inPlace with
          | .error e => ([], .error e)
          | .ok s => match text x s with
            | .error e => ([], .error e)
            | .ok out => P.writeOrPrint inPlace file out : Run) := by
  split
  · exact .inl rfl
  · split
    · exact .inl rfl
    · split
      · exact .inl rfl
      · exact cut_writeOrPrint h _ _ _

theorem piping_refreshWith (P : Proc) (x : Fmt) (path s : Str) (f : EncFile x.doc.F) (i : Nat) (config : Config) :
    P.piping.refreshWith x path s f i config = P.refreshWith x path s f i config := by
  induction config with
  | nil => rfl
  | cons r l ih => simp only [Proc.refreshWith, ih]; rfl

theorem piping_traverse (P : Proc) (l : List Str) : P.piping.traverse l = P.traverse l := by
  induction l with
  | nil => rfl
  | cons a r ih => simp only [Proc.traverse, ih]; rfl

theorem piping_retrieveConfig (P : Proc) (o : Option Str) : P.piping.retrieveConfig o = P.retrieveConfig o := by
  unfold Proc.retrieveConfig
  simp only [piping_traverse]
  rfl

theorem cut_editFile {P : Proc} {n : Nat} (h : P.stdout = some n) (x : Fmt) (file : Option Str) (i : Nat) :
    CutRun n (P.piping.editFile x file i) (P.editFile x file i) := by
  unfold Proc.editFile
  simp only [piping_editSession]
  rw [show P.piping.getInput file none = P.getInput file none from rfl]
  split
  · exact .inl rfl
  · rename_i s _
    rw [show P.piping.parseFile x s = P.parseFile x s from rfl]
    split
    · exact .inl rfl
    · rename_i f _
      rw [show P.piping.env = P.env from rfl]
      split
      · exact .inl rfl
      · rename_i g p _
        split
        · exact .inl rfl
        · exact .inl rfl
        · rename_i es m _
          rw [show P.piping.editedText x g p m i = P.editedText x g p m i from rfl]
          split
          · exact .inl rfl
          · rename_i out _
            rw [show P.piping.stdin = P.stdin from rfl]
            split
            · exact .inl rfl
            · exact .inl rfl
            · rcases cut_printLine h out with e | ⟨es', t, e1, e2⟩
              · rw [e]; exact .inl rfl
              · rw [e1, e2]
                exact .inr ⟨es ++ es', t, by simp only [List.append_assoc], by simp only [List.append_assoc]⟩

/-- If standard output fails, a run is as if it did not, except that, if it would succeed with
printing, it panics after having printed a part. -/
theorem run_cut {P : Proc} {n : Nat} (h : P.stdout = some n) (c : Command) (i : Nat) :
    CutRun n (P.piping.run c i) (P.run c i) := by
  unfold Proc.run
  rw [piping_retrieveConfig]
  split
  · split
    · exact .inl rfl
    · rename_i config _
      unfold Proc.dispatch
      rw [show P.piping.env = P.env from rfl]
      cases c with
      | encrypt l =>
        simp only
        split
        · exact .inl rfl
        · exact cut_textRun h (text := fun x s => P.encryptText x s _ i)
      | decrypt l =>
        simp only
        split
        · exact .inl rfl
        · exact cut_textRun h (text := fun x s => P.decryptText x s)
      | refresh l =>
        simp only
        split
        · exact .inl rfl
        · rename_i a _
          have he : P.piping.refreshText = P.refreshText := by
            funext x s a i
            unfold Proc.refreshText
            rw [piping_retrieveConfig]
            simp only [piping_refreshWith]
            rfl
          unfold Proc.refresh
          rw [he]
          exact cut_textRun h (text := fun x s => P.refreshText x s a i)
      | edit a =>
        simp only
        unfold Proc.edit
        split
        · exact .inl rfl
        · exact cut_editFile h _ _ _
      | addKeys a => exact .inl rfl
      | removeKeys a => exact .inl rfl
  · exact .inl rfl

end Rops
