import Verif.Lemmas.ToyCli
import Verif.Props.Files
import Verif.Props.SetMap
/-!
# What commands write

C33 and C34 encryption with a configuration, C35 refresh, C39 edit.
-/

namespace Rops.Props
open Spec

/-! ## C33 -/

/-- **C33.** `rops encrypt` succeeds exactly if the flags are acceptable, the configuration, the
format and the text are found, and the document can be encrypted with the following settings:
the keys of the arguments, then those of the first rule that matches the path; the partial
encryption of the arguments, otherwise that of the rule. The result is what is written or
printed. -/
theorem C33_encrypt (P : Proc) (l : EncryptLine) (i : Nat) (es : List Event) :
    P.run (.encrypt l) i = (es, .ok ()) ↔
    ¬ (l.macOnlyEncrypted = true ∧ l.setting = none) ∧ ¬ (l.inPlace = true ∧ l.input.file = none) ∧
    ∃ config x s map f j, P.retrieveConfig l.input.config = .ok config ∧ getFormat l.input.file l.input.format = .ok x ∧
      InputText P l.input.file s ∧ (P.T x).parse s = some map ∧
      Builder.encrypt P.env
        { map
          partialEncryption := l.setting.or ((ruleFor P.env.rx config l.input.file).bind CreationRule.partialEncryption)
          macOnlyEncrypted := if l.macOnlyEncrypted then some true else none
          ageKeyIds := l.keys.age ++ (ruleKeys (ruleFor P.env.rx config l.input.file)).age
          kmsKeyIds := l.keys.kms ++ (ruleKeys (ruleFor P.env.rx config l.input.file)).kms } i = .ok (f, j) ∧
      Delivered P l.inPlace l.input.file (EncFile.toText (P.T x) P.env.C f) es :=
  run_encrypt_ok

/-- **C33.** So the file that is written has a unit for each of the given keys and each of the
keys of the rule, once, in this order, and the settings described. -/
theorem C33_file {P : Proc} {l : EncryptLine} {i : Nat} {es : List Event} (h : P.run (.encrypt l) i = (es, .ok ()))
    {config : Config} (hc : P.retrieveConfig l.input.config = .ok config) :
    ∃ (x : Fmt) (f : EncFile x.doc.F), getFormat l.input.file l.input.format = .ok x ∧
      Delivered P l.inPlace l.input.file (EncFile.toText (P.T x) P.env.C f) es ∧
      keyIds f.metadata.integration .age = addIds [] (l.keys.age ++ (ruleKeys (ruleFor P.env.rx config l.input.file)).age) ∧
      keyIds f.metadata.integration .kms = addIds [] (l.keys.kms ++ (ruleKeys (ruleFor P.env.rx config l.input.file)).kms) ∧
      f.metadata.partialEncryption = l.setting.or ((ruleFor P.env.rx config l.input.file).bind CreationRule.partialEncryption) ∧
      f.metadata.macOnlyEncrypted = if l.macOnlyEncrypted then some true else none := by
  obtain ⟨_, _, config', x, s, map, f, j, hc', hx, _, _, hb, hd⟩ := run_encrypt_ok.1 h
  rw [hc] at hc'
  cases hc'
  obtain ⟨_, _, _, im, _, _, _, h3, _, _, h6⟩ := Builder.encrypt_ok hb
  obtain ⟨_, _, k1, k2, _⟩ := intoMetadata_ok h3
  refine ⟨x, f, hx, hd, ?_, ?_, ?_, ?_⟩ <;> rw [h6]
  · exact k1
  · exact k2

/-- **C33.** Rules before the first one that matches and rules after it do not matter. -/
theorem C33_first_rule (P : Proc) (l : EncryptLine) (i : Nat) (pre post : Config) (r : CreationRule)
    (hpre : ∀ r' ∈ pre, P.env.rx r'.pathRegex (l.input.file.getD []) = false)
    (hr : P.env.rx r.pathRegex (l.input.file.getD []) = true) :
    P.dispatch (pre ++ r :: post) (.encrypt l) i = P.dispatch [r] (.encrypt l) i := by
  have hrule : ruleFor P.env.rx (pre ++ r :: post) l.input.file = ruleFor P.env.rx [r] l.input.file := by
    unfold ruleFor
    rw [List.find?_append, List.find?_eq_none.2 (fun x hx => by rw [hpre x hx]; simp)]
    simp [hr]
  unfold Proc.dispatch
  simp only
  cases hl : l.args with
  | none => rfl
  | some a =>
    obtain ⟨_, _, rfl⟩ := encryptArgs_ok.1 hl
    simp only [merge_eq, hrule]

/-- **C33.** If no rule matches the configuration does not matter. -/
theorem C33_no_rule (P : Proc) (l : EncryptLine) (i : Nat) (config : Config)
    (h : ∀ r ∈ config, P.env.rx r.pathRegex (l.input.file.getD []) = false) :
    P.dispatch config (.encrypt l) i = P.dispatch [] (.encrypt l) i := by
  have hrule : ruleFor P.env.rx config l.input.file = none := List.find?_eq_none.2 (fun x hx => by rw [h x hx]; simp)
  unfold Proc.dispatch
  simp only
  cases hl : l.args with
  | none => rfl
  | some a =>
    obtain ⟨_, _, rfl⟩ := encryptArgs_ok.1 hl
    simp only [merge_eq, hrule, ruleFor_nil]

/-- The file written in the example has the key of the argument, then the one of the rule, and
the setting of the rule. -/
example : ∃ (es : List Event) (f : EncFile Format.json),
    (Toy.proc Toy.rule (Toy.mapText Toy.small) []).run (.encrypt Toy.encryptLine) 0 = (es, .ok ()) ∧
    keyIds f.metadata.integration .age = [c!"pk2", c!"pk1"] ∧
    f.metadata.partialEncryption = some (.unencryptedSuffix c!"_plain") ∧ f.metadata.macOnlyEncrypted = none := by
  obtain ⟨_, _, _, _, h, _⟩ := Toy.encrypted []
  obtain ⟨x, f, hx, _, h1, _, h2, h3⟩ := C33_file h (Toy.proc_config _ _)
  have : x = .json := by
    have : getFormat Toy.encryptLine.input.file Toy.encryptLine.input.format = .ok .json := by decide +kernel
    rw [this] at hx
    cases hx
    rfl
  subst this
  exact ⟨_, f, h, h1, h2, h3⟩

/-! ## C34 -/

/-- The rule without its `mac_only_encrypted`. -/
def forgetMacOnly (r : CreationRule) : CreationRule := { r with macOnlyEncrypted := none }

/-- **C34.** `rops encrypt` does the same whatever `mac_only_encrypted` the rules have. -/
theorem C34_never_applied (P : Proc) (l : EncryptLine) (i : Nat) (config config' : Config)
    (h : config.map forgetMacOnly = config'.map forgetMacOnly) :
    P.dispatch config (.encrypt l) i = P.dispatch config' (.encrypt l) i := by
  have hrule : (ruleFor P.env.rx config l.input.file).map forgetMacOnly = (ruleFor P.env.rx config' l.input.file).map forgetMacOnly := by
    induction config generalizing config' with
    | nil =>
      cases config' with
      | nil => rfl
      | cons r c => simp at h
    | cons r c ih =>
      cases config' with
      | nil => simp at h
      | cons r' c' =>
        simp only [List.map_cons, List.cons.injEq] at h
        rw [ruleFor_cons, ruleFor_cons]
        have hp : r.pathRegex = r'.pathRegex := by
          have := congrArg CreationRule.pathRegex h.1
          exact this
        rw [hp]
        split
        · simp [h.1]
        · exact ih c' h.2
  unfold Proc.dispatch
  simp only
  cases hl : l.args with
  | none => rfl
  | some a =>
    obtain ⟨_, _, rfl⟩ := encryptArgs_ok.1 hl
    simp only [merge_eq]
    cases h1 : ruleFor P.env.rx config l.input.file with
    | none =>
      rw [h1] at hrule
      cases h2 : ruleFor P.env.rx config' l.input.file with
      | none => rfl
      | some r => rw [h2] at hrule; cases hrule
    | some r =>
      rw [h1] at hrule
      cases h2 : ruleFor P.env.rx config' l.input.file with
      | none => rw [h2] at hrule; cases hrule
      | some r' =>
        rw [h2] at hrule
        simp only [Option.map_some, Option.some.injEq] at hrule
        have e1 : r.keys = r'.keys := by
          have := congrArg CreationRule.keys hrule
          exact this
        have e2 : r.partialEncryption = r'.partialEncryption := by
          have := congrArg CreationRule.partialEncryption hrule
          exact this
        simp only [ruleKeys, e1, e2, Option.bind_some, Option.some_or]

/-- **C34.** The MAC of a file is over the encrypted values only exactly if the flag is given,
and the flag is refused unless the command line also has a partial encryption setting; that a
rule has one is not enough. -/
theorem C34_only_by_flag {P : Proc} {l : EncryptLine} {i : Nat} {es : List Event} (h : P.run (.encrypt l) i = (es, .ok ())) :
    (∃ (x : Fmt) (f : EncFile x.doc.F), Delivered P l.inPlace l.input.file (EncFile.toText (P.T x) P.env.C f) es ∧
      f.metadata.macOnlyEncrypted = if l.macOnlyEncrypted then some true else none) ∧
    (l.macOnlyEncrypted = true → l.setting ≠ none) := by
  obtain ⟨h1, _, config, x, s, map, f, j, hc, hx, _, _, hb, hd⟩ := run_encrypt_ok.1 h
  obtain ⟨_, _, _, im, _, _, _, h3, _, _, h6⟩ := Builder.encrypt_ok hb
  exact ⟨⟨x, f, hd, by rw [h6]⟩, fun hm hs => h1 ⟨hm, hs⟩⟩

/-- **C34.** The merge itself would apply the setting of the first matching rule to an absent
argument. -/
theorem C34_merge_applies (rx : RegexMatch) (a : EncryptArgs) (config : Config) (ha : a.macOnlyEncrypted = none) :
    (a.merge rx config).macOnlyEncrypted = (ruleFor rx config a.input.file).bind CreationRule.macOnlyEncrypted := by
  rw [merge_eq, ha, Option.none_or]

/-- **C34, negative.** A configuration with `mac_only_encrypted = true` gives a file without
it. -/
theorem C34_witness : ∃ (es : List Event) (f : EncFile Format.json),
    (Toy.proc Toy.rule (Toy.mapText Toy.small) []).retrieveConfig none = .ok [Toy.creationRule] ∧
    ruleFor Toy.env.rx [Toy.creationRule] Toy.input.file = some Toy.creationRule ∧
    Toy.creationRule.macOnlyEncrypted = some true ∧
    (Toy.proc Toy.rule (Toy.mapText Toy.small) []).run (.encrypt Toy.encryptLine) 0 = (es, .ok ()) ∧
    es = [.write c!"a.json" (utf8 (EncFile.toText Toy.jsonText Toy.env.C f)) .done] ∧
    f.metadata.macOnlyEncrypted = none := by
  obtain ⟨f, j, _, hb, h, _⟩ := Toy.encrypted []
  obtain ⟨_, _, _, im, _, _, _, _, _, _, h6⟩ := Builder.encrypt_ok hb
  exact ⟨_, f, Toy.proc_config _ _, by decide +kernel, rfl, h, rfl, by rw [h6]; rfl⟩

/-! ## C35 -/

/-- **C35.** If no rule matches, or the first one that does describes the file, refresh gives the
text as it is. -/
theorem C35_unchanged {P : Proc} {l : PlaceLine} {i : Nat} {es : List Event} (h : P.run (.refresh l) i = (es, .ok ()))
    {config : Config} (hc : P.retrieveConfig l.input.config = .ok config) {x : Fmt}
    (hx : getFormat l.input.file l.input.format = .ok x) {s : Str} (hs : InputText P l.input.file s)
    {f : EncFile x.doc.F} (hf : EncFile.ofText (P.T x) P.O P.env.C s = some f)
    (hd : ∀ r, ruleFor P.env.rx config l.input.file = some r → Describes r f.metadata) :
    Delivered P l.inPlace l.input.file s es := by
  obtain ⟨_, config', x', s', f', out, hc', hx', hs', hf', ho, hdel⟩ := run_refresh_ok.1 h
  rw [hc] at hc'
  cases hc'
  rw [hx] at hx'
  cases hx'
  cases inputText_unique hs hs'
  rw [hf] at hf'
  cases hf'
  rcases refreshWith_ok.1 ho with ⟨_, rfl⟩ | ⟨r, hr, hn, _⟩
  · exact hdel
  · exact absurd (hd r hr) hn

/-- **C35.** Otherwise refresh writes or prints a new encryption of the same map, under a new data
key, with exactly the keys and the partial encryption of the rule. -/
theorem C35_reencrypted {P : Proc} (he : EnvLaws P.env) {l : PlaceLine} {i : Nat} {es : List Event}
    (h : P.run (.refresh l) i = (es, .ok ())) {config : Config} (hc : P.retrieveConfig l.input.config = .ok config) {x : Fmt}
    (hx : getFormat l.input.file l.input.format = .ok x) {s : Str} (hs : InputText P l.input.file s)
    {f : EncFile x.doc.F} (hf : EncFile.ofText (P.T x) P.O P.env.C s = some f)
    {r : CreationRule} (hr : ruleFor P.env.rx config l.input.file = some r) (hd : ¬ Describes r f.metadata)
    {key : Bytes} {m : RMap Value} {m' : RMap EncLeaf} (hh : Holding P.env (docRep x) f key m m')
    (hfits : Fits P.env.fl (docRep x) r.partialEncryption m) :
    ∃ (f' : EncFile x.doc.F) (m'' : RMap EncLeaf),
      Delivered P l.inPlace l.input.file (EncFile.toText (P.T x) P.env.C f') es ∧
      Holding P.env (docRep x) f' (P.env.newKey i) m m'' ∧
      keyIds f'.metadata.integration .age = addIds [] r.keys.age ∧
      keyIds f'.metadata.integration .kms = addIds [] r.keys.kms ∧
      f'.metadata.partialEncryption = r.partialEncryption ∧
      f'.metadata.macOnlyEncrypted = if r.macOnlyEncrypted = some true then some true else none := by
  obtain ⟨_, config', x', s', f', out, hc', hx', hs', hf', ho, hdel⟩ := run_refresh_ok.1 h
  rw [hc] at hc'
  cases hc'
  rw [hx] at hx'
  cases hx'
  cases inputText_unique hs hs'
  rw [hf] at hf'
  cases hf'
  rcases refreshWith_ok.1 ho with ⟨hn, _⟩ | ⟨r', hr', _, g, f1, j, hg, hb, rfl⟩
  · exact absurd (hn r hr) hd
  · rw [hr] at hr'
    cases hr'
    obtain ⟨_, hpl, _⟩ := of_decrypt_holding he (docRep_lawful x) hh hfits.holds hg
    obtain ⟨m'', _, _, hh', _⟩ := holding_of_builder he (docRep_lawful x) (hpl.read) hfits hb
    obtain ⟨_, _, _, im, _, _, _, h3, _, _, h6⟩ := Builder.encrypt_ok hb
    obtain ⟨_, _, k1, k2, _⟩ := intoMetadata_ok h3
    refine ⟨f1, m'', hdel, hh', ?_, ?_, ?_, ?_⟩ <;> rw [h6]
    · exact k1
    · exact k2

/-- **C35.** The new file is described by the rule, unless the rule says
`mac_only_encrypted = false`. -/
theorem C35_described {M : Type} {r : CreationRule} {md : Metadata M}
    (ha : keyIds md.integration .age = addIds [] r.keys.age) (hk : keyIds md.integration .kms = addIds [] r.keys.kms)
    (hp : md.partialEncryption = r.partialEncryption)
    (hm : md.macOnlyEncrypted = if r.macOnlyEncrypted = some true then some true else none) :
    Describes r md ↔ r.macOnlyEncrypted ≠ some false := by
  unfold Describes
  rw [ha, hk, hp, hm]
  constructor
  · rintro ⟨h, _⟩ hf
    rw [hf] at h
    cases h
  · intro h
    refine ⟨?_, rfl, fun id => ?_, fun id => ?_⟩
    · cases hr : r.macOnlyEncrypted with
      | none => rfl
      | some b => cases b with
        | true => rfl
        | false => exact absurd hr h
    · rw [mem_addIds]; simp
    · rw [mem_addIds]; simp

/-- The metadata of an encryption are read from its text; in JSON and YAML the whole file is. -/
theorem reread {O : DocOps} (hO : DocLaws O) {env : Env} (x : Fmt) {T : TextOps x.doc} {ok : x.doc.F.Map → Prop}
    (hT : TextLaws T ok) {rep : Value → Prop} {f : EncFile x.doc.F} {key : Bytes} {m : RMap Value} {m' : RMap EncLeaf}
    (hh : Holding env rep f key m m') (hw : EncWritable O env.C f.metadata) (hok : ok (f.toDoc x.doc env.C))
    (hs : c!"sops" ∉ topKeys m) (hn : x = .toml → (topKeys m).Nodup) :
    ∃ f', EncFile.ofText T O env.C (EncFile.toText T env.C f) = some f' ∧ f'.metadata = f.metadata ∧
      (x ≠ .toml → f' = f) := by
  cases x with
  | json =>
    have := C44_json_encryption hO (T := T) hT (f := f) hh hw hok
    rw [if_neg hs] at this
    exact ⟨f, this, rfl, fun _ => rfl⟩
  | yaml =>
    have := C44_yaml_encryption hO (T := T) hT (f := f) hh hw hok
    rw [if_neg hs] at this
    exact ⟨f, this, rfl, fun _ => rfl⟩
  | toml =>
    obtain ⟨f', h1, h2, _⟩ := C44_toml hO (T := T) hT (f := f) hh.written (by rw [holding_topKeys hh]; exact hn rfl) hw hok
    exact ⟨f', h1, h2, fun h => absurd rfl h⟩

/-- The process after a command has had some effects. -/
def after (P : Proc) (es : List Event) : Proc := { P with file := filesAfter P.file es }

theorem inputText_after {P : Proc} {file : Option Str} {s out : Str} {es : List Event} (hs : InputText P file s)
    (hd : Delivered P true file out es) : InputText (after P es) file out ∧ Delivered (after P es) true file out es ∧
      filesAfter (after P es).file es = (after P es).file := by
  rcases hd with ⟨_, p, rfl, hsave, rfl⟩ | ⟨h, _⟩
  · refine ⟨.inl ?_, .inl ⟨rfl, p, rfl, hsave, rfl⟩, ?_⟩
    · rcases hs with ⟨_, _, _, ht, _⟩ | ⟨_, h, _⟩
      · refine ⟨p, utf8 out, rfl, ht, ?_, utf8?_utf8 out⟩
        simp [after, filesAfter, effect, Files.put]
      · cases h
    · funext q
      simp only [after, filesAfter, List.foldl_cons, List.foldl_nil, effect, Files.put]
      split <;> rfl
  · cases h

/-- **C35.** A second refresh of the file, with the same configuration, writes what is there, if
the keys and the setting of the rule can be written and it does not say
`mac_only_encrypted = false`. -/
theorem C35_second_refresh {P : Proc} (he : EnvLaws P.env) (hO : DocLaws P.O) (hclock : ∀ i, Calendar (P.env.clock i))
    {l : PlaceLine} {i : Nat} {es : List Event} (h : P.run (.refresh l) i = (es, .ok ())) (hin : l.inPlace = true)
    {config : Config} (hc : P.retrieveConfig l.input.config = .ok config) {x : Fmt}
    (hx : getFormat l.input.file l.input.format = .ok x) {s : Str} (hs : InputText P l.input.file s)
    {f : EncFile x.doc.F} (hf : EncFile.ofText (P.T x) P.O P.env.C s = some f)
    {key : Bytes} {m : RMap Value} {m' : RMap EncLeaf} (hh : Holding P.env (docRep x) f key m m')
    (hrule : ∀ r, ruleFor P.env.rx config l.input.file = some r → Fits P.env.fl (docRep x) r.partialEncryption m ∧
      (∀ id ∈ r.keys.age, KeyWritable P.O .age id) ∧ (∀ id ∈ r.keys.kms, KeyWritable P.O .kms id) ∧
      (∀ p, r.partialEncryption = some p → p.ok P.O = true) ∧ r.macOnlyEncrypted ≠ some false)
    {ok : x.doc.F.Map → Prop} (hT : TextLaws (P.T x) ok)
    (hok : ∀ (f' : EncFile x.doc.F) m'', Holding P.env (docRep x) f' (P.env.newKey i) m m'' → ok (f'.toDoc x.doc P.env.C))
    (hsops : c!"sops" ∉ topKeys m) (hn : x = .toml → (topKeys m).Nodup)
    (hc' : (after P es).retrieveConfig l.input.config = .ok config) (i' : Nat) :
    (after P es).run (.refresh l) i' = (es, .ok ()) ∧ filesAfter (after P es).file es = (after P es).file := by
  obtain ⟨hfl, config', x', s', f', out, hc1, hx', hs', hf', ho, hdel⟩ := run_refresh_ok.1 h
  rw [hc] at hc1
  cases hc1
  rw [hx] at hx'
  cases hx'
  cases inputText_unique hs hs'
  rw [hf] at hf'
  cases hf'
  rw [hin] at hdel
  obtain ⟨hs2, hdel2, hfix⟩ := inputText_after hs hdel
  refine ⟨run_refresh_ok.2 ⟨hfl, config, x, out, ?_⟩, hfix⟩
  rcases refreshWith_ok.1 ho with ⟨hn, rfl⟩ | ⟨r, hr, _, g, f1, j, hg, hb, rfl⟩
  · exact ⟨f, out, hc', hx, hs2, hf, refreshWith_ok.2 (.inl ⟨hn, rfl⟩), by rw [hin]; exact hdel2⟩
  · obtain ⟨hfits, hka, hkk, hset, hmo⟩ := hrule r hr
    obtain ⟨_, hpl, _⟩ := of_decrypt_holding he (docRep_lawful x) hh hfits.holds hg
    obtain ⟨m'', _, _, hh', _⟩ := holding_of_builder he (docRep_lawful x) (hpl.read) hfits hb
    have hw := C43_created he hclock (docRep_lawful x) hpl.read hfits hka hkk hset hb
    obtain ⟨f2, h1, h2, _⟩ := reread hO x hT hh' hw (hok f1 m'' hh') hsops hn
    obtain ⟨_, _, _, im, _, _, _, h3, _, _, h6⟩ := Builder.encrypt_ok hb
    obtain ⟨_, _, k1, k2, _⟩ := intoMetadata_ok h3
    refine ⟨f2, _, hc', hx, hs2, h1, refreshWith_ok.2 (.inl ⟨fun r' hr' => ?_, rfl⟩), by rw [hin]; exact hdel2⟩
    have hr' : ruleFor P.env.rx config l.input.file = some r' := hr'
    rw [hr] at hr'
    cases hr'
    rw [h2, h6]
    exact (C35_described k1 k2 rfl rfl).2 hmo

/-- **C35, negative.** With a rule that says `mac_only_encrypted = false` every refresh of a file
written by a refresh writes a new encryption under a new key. -/
theorem C35_never_settles {P : Proc} (he : EnvLaws P.env) (hO : DocLaws P.O) (hclock : ∀ i, Calendar (P.env.clock i))
    {l : PlaceLine} {i : Nat} {es : List Event} (h : P.run (.refresh l) i = (es, .ok ())) (hin : l.inPlace = true)
    {config : Config} (hc : P.retrieveConfig l.input.config = .ok config) {x : Fmt} (hxt : x ≠ .toml)
    (hx : getFormat l.input.file l.input.format = .ok x) {s : Str} (hs : InputText P l.input.file s)
    {f : EncFile x.doc.F} (hf : EncFile.ofText (P.T x) P.O P.env.C s = some f)
    {r : CreationRule} (hr : ruleFor P.env.rx config l.input.file = some r) (hmo : r.macOnlyEncrypted = some false)
    (hmd : f.metadata.macOnlyEncrypted ≠ some false)
    {key : Bytes} {m : RMap Value} {m' : RMap EncLeaf} (hh : Holding P.env (docRep x) f key m m')
    (hfits : Fits P.env.fl (docRep x) r.partialEncryption m)
    (hka : ∀ id ∈ r.keys.age, KeyWritable P.O .age id) (hkk : ∀ id ∈ r.keys.kms, KeyWritable P.O .kms id)
    (hset : ∀ p, r.partialEncryption = some p → p.ok P.O = true)
    {ok : x.doc.F.Map → Prop} (hT : TextLaws (P.T x) ok)
    (hok : ∀ (f' : EncFile x.doc.F) m'', Holding P.env (docRep x) f' (P.env.newKey i) m m'' → ok (f'.toDoc x.doc P.env.C))
    (hsops : c!"sops" ∉ topKeys m) (hc' : (after P es).retrieveConfig l.input.config = .ok config)
    {i' : Nat} {es' : List Event} (h' : (after P es).run (.refresh l) i' = (es', .ok ())) :
    ∃ (f1 f2 : EncFile x.doc.F) (m1 m2 : RMap EncLeaf),
      Delivered P true l.input.file (EncFile.toText (P.T x) P.env.C f1) es ∧
      Holding P.env (docRep x) f1 (P.env.newKey i) m m1 ∧
      Delivered P true l.input.file (EncFile.toText (P.T x) P.env.C f2) es' ∧
      Holding P.env (docRep x) f2 (P.env.newKey i') m m2 := by
  have hnd : ¬ Describes r f.metadata := fun hd => hmd (by rw [← hd.1, hmo])
  obtain ⟨_, config', x', s', f', out, hc1, hx', hs', hf', ho, hdel⟩ := run_refresh_ok.1 h
  rw [hc] at hc1
  cases hc1
  rw [hx] at hx'
  cases hx'
  cases inputText_unique hs hs'
  rw [hf] at hf'
  cases hf'
  rw [hin] at hdel
  rcases refreshWith_ok.1 ho with ⟨hn, _⟩ | ⟨r', hr', _, g, f1, j, hg, hb, rfl⟩
  · exact absurd (hn r hr) hnd
  rw [hr] at hr'
  cases hr'
  obtain ⟨_, hpl, _⟩ := of_decrypt_holding he (docRep_lawful x) hh hfits.holds hg
  obtain ⟨m'', _, _, hh', _⟩ := holding_of_builder he (docRep_lawful x) (hpl.read) hfits hb
  have hw := C43_created he hclock (docRep_lawful x) hpl.read hfits hka hkk hset hb
  obtain ⟨f2, h1, _, h2⟩ := reread hO x hT hh' hw (hok f1 m'' hh') hsops (fun h => absurd h hxt)
  cases h2 hxt
  obtain ⟨hs2, _, _⟩ := inputText_after hs hdel
  obtain ⟨_, _, _, im, _, _, _, h3, _, _, h6⟩ := Builder.encrypt_ok hb
  have hnd1 : ¬ Describes r f1.metadata := fun hd => by
    have := hd.1
    rw [h6, hmo] at this
    cases this
  obtain ⟨f3, m3, hd3, hh3, _⟩ := C35_reencrypted (P := after P es) he h' hc' hx hs2 h1 hr hnd1 hh' hfits
  rw [hin] at hd3
  exact ⟨f1, f3, m'', m3, hdel, hh', hd3, hh3⟩

/-- The file of the example is refreshed: it had two keys and no `mac_only_encrypted`. A second
refresh writes the same. -/
example : ∃ (P : Proc) (f : EncFile Format.json) (es : List Event),
    InputText P (some c!"a.json") (EncFile.toText Toy.jsonText Toy.env.C f) ∧ ¬ Describes Toy.creationRule f.metadata ∧
    P.run (.refresh Toy.placeLine) 100 = (es, .ok ()) ∧
    (after P es).run (.refresh Toy.placeLine) 200 = (es, .ok ()) := by
  obtain ⟨f, m', f', j, h1, hh, hnd, hb, hrun⟩ := Toy.refreshed
  refine ⟨_, f, _, Toy.proc_input _ _ _, hnd, hrun, ?_⟩
  have hfits : Fits Toy.env.fl jsonRep (some (.unencryptedSuffix c!"_plain")) _ := Toy.small_fits
  let P := Toy.proc Toy.rule (EncFile.toText Toy.jsonText Toy.env.C f) []
  let es : List Event := [.write c!"a.json" (utf8 (EncFile.toText Toy.jsonText Toy.env.C f')) .done]
  have hx : getFormat Toy.placeLine.input.file Toy.placeLine.input.format = .ok .json := by decide +kernel
  have hc : P.retrieveConfig Toy.placeLine.input.config = .ok [Toy.creationRule] := Toy.proc_config _ _
  have hc' : (after P es).retrieveConfig Toy.placeLine.input.config = .ok [Toy.creationRule] := by
    rw [← hc]
    refine retrieveConfig_files rfl rfl rfl rfl (fun p h => by cases h) (fun p h => by cases h) fun dir h d hd => ?_
    cases h
    refine filesAfter_other fun e he hp => ?_
    rw [List.mem_singleton.1 he] at hp
    simp only [ancestors, List.mem_cons, List.not_mem_nil, or_false] at hd
    have hp : c!"a.json" = configIn d := Option.some.inj hp
    rcases hd with rfl | rfl <;> (revert hp; decide)
  have hs : InputText P Toy.placeLine.input.file (EncFile.toText Toy.jsonText Toy.env.C f) := Toy.proc_input _ _ _
  have hrule : ∀ r, ruleFor P.env.rx [Toy.creationRule] Toy.placeLine.input.file = some r →
      Fits P.env.fl jsonRep r.partialEncryption [(c!"a", .leaf (.string c!"x")), (c!"b_plain", .leaf (.boolean true))] ∧
      (∀ id ∈ r.keys.age, KeyWritable P.O .age id) ∧ (∀ id ∈ r.keys.kms, KeyWritable P.O .kms id) ∧
      (∀ p, r.partialEncryption = some p → p.ok P.O = true) ∧ r.macOnlyEncrypted ≠ some false := by
    intro r hr
    have : ruleFor Toy.env.rx [Toy.creationRule] Toy.placeLine.input.file = some Toy.creationRule := by decide +kernel
    obtain rfl : Toy.creationRule = r := Option.some.inj (this.symm.trans hr)
    exact ⟨hfits, fun _ _ => rfl, fun _ h => (by cases h), fun _ h => (by cases h; rfl), by decide⟩
  have hsops : c!"sops" ∉ topKeys [(c!"a", .leaf (Value.string c!"x")), (c!"b_plain", .leaf (.boolean true))] := by decide
  exact (C35_second_refresh (P := P) (l := Toy.placeLine) (es := es) (x := .json) Toy.env_laws Toy.docOps_laws Toy.env_clock
    hrun rfl hc hx hs h1 hh hrule Toy.jsonText_laws (fun _ _ _ => trivial) hsops (fun h => by cases h) hc' 200).1

/-! ## C39 -/

/-- **C39.** If the editor leaves nothing that can be parsed and the user then interrupts, no file
is changed, nothing is printed, and the command succeeds. -/
theorem C39_cancelled {P : Proc} (hfresh : FreshTemp P) {a : InputArgs} {x : Fmt} (hx : getFormat a.file a.format = .ok x)
    (hcan : Cancelled (P.T x).parse P.editor) (i : Nat) :
    filesAfter P.file (P.run (.edit a) i).1 = P.file ∧ (∀ t, Event.print t ∉ (P.run (.edit a) i).1) ∧
    ∀ {config s} {f : EncFile x.doc.F} {g p t}, P.retrieveConfig a.config = .ok config → InputText P a.file s →
      EncFile.ofText (P.T x) P.O P.env.C s = some f → f.decryptAndSave x.doc.F P.env = .ok (g, p) →
      P.temp = some t → P.saves t (utf8 ((P.T x).render g.map)) = .done → EditorReady P →
      (P.run (.edit a) i).2 = .ok () := by
  have hquiet : Between P (P.run (.edit a) i).1 := by
    rw [run_edit]
    cases hc : P.retrieveConfig a.config with
    | error e => exact .inl rfl
    | ok config =>
      simp only [Proc.edit, hx, Proc.editFile]
      split
      · exact .inl rfl
      · split
        · exact .inl rfl
        · rename_i f _
          split
          · exact .inl rfl
          · rename_i g p _
            have hsnd := editSession_snd (map := g.map) fun t => editLoop_cancelled (t := t) hcan
            cases hse : P.editSession x g.map with
            | mk es res =>
              rw [hse] at hsnd
              have hb : Between P es := by
                rcases editSession_shape hse with ⟨h, _⟩ | ⟨_, h⟩
                · exact h
                · rcases hsnd with h' | ⟨e, h', hne⟩
                  · simp only at h'
                    rw [h'] at h
                    cases h
                  · simp only at h'
                    rw [h'] at h
                    cases h
                    exact absurd rfl hne
              rcases hsnd with h' | ⟨e, h', _⟩ <;> (simp only at h'; subst h'; exact hb)
  refine ⟨hquiet.files hfresh, fun t hm => ?_, ?_⟩
  · have := hquiet.path _ hm
    rcases hquiet with h | ⟨t, mid, _, h, hmid⟩
    · rw [h] at hm; cases hm
    · rw [h] at hm
      simp only [List.mem_cons, List.mem_append, List.not_mem_nil, or_false, reduceCtorEq, false_or] at hm
      cases hmid _ hm
  · intro config s f g p t hc hs hf hg ht hw hed
    have h1 := editSession_started ht hw hed
    rw [editLoop_cancelled hcan] at h1
    have := run_edit_ok (P := P) (a := a) (i := i).2
      ⟨⟨config, hc⟩, x, s, f, g, p, hx, hs, hf, hg, .inl (show P.editSession x g.map = ((P.editSession x g.map).1, .ok none) by rw [← h1])⟩
    rw [this]

theorem editedText_unchanged {P : Proc} (he : EnvLaws P.env) {i : Nat} {x : Fmt} {f : EncFile x.doc.F}
    {key : Bytes} {m : RMap Value} {m' : RMap EncLeaf} (hh : Holding P.env (docRep x) f key m m')
    (hu : ∀ (a b : Nat) (p q : List Str) (v : Value) (x y : EncValue), (leaves m)[a]? = some (p, v) → (leaves m)[b]? = some (q, v) →
      (leaves m')[a]? = some (p, .encrypted x) → (leaves m')[b]? = some (q, .encrypted y) →
      pathText p = pathText q → x.nonce = y.nonce)
    {g : DecFile x.doc.F} {p : SavedParameters} (hg : f.decryptAndSave x.doc.F P.env = .ok (g, p))
    {edited : x.doc.F.Map} (heq : x.doc.F.eq g.map edited = true) (hint : x.doc.F.toInternal edited = .ok m) :
    P.editedText x g p edited i = .ok (EncFile.toText (P.T x) P.env.C f) := by
  obtain ⟨_, hpl, hmd, _⟩ := of_decryptAndSave_holding he (docRep_lawful x) hh hh.fits.holds hg
  obtain ⟨g1, hg1, hpl1, e1, e2, e3, e4, _⟩ := C27_set_map he (docRep_lawful x) g edited m hint hh.fits.holds i
  have hsaved := C11_saved_parameters_reproduce he (docRep_lawful x) hh hh.fits.holds hu
    P.env.host P.env.host g p hg i
  have hmdeq : g1.metadata = g.metadata := by
    have e5 : g1.metadata.mac = g.metadata.mac := by rw [hpl1.mac, hpl.mac, e2, e3]
    have e4 := e4 heq
    revert e1 e2 e3 e4 e5
    cases g1.metadata
    cases g.metadata
    simp only
    rintro rfl rfl rfl rfl rfl
    rfl
  have hsaved1 : g1.encryptSaved x.doc.F P.env p i = .ok (f, i) := by
    obtain ⟨m2, m3, i1, h1, h2, h3, h4, h5⟩ := encryptWith_ok_iff.1 hsaved
    rw [hpl.read] at h1
    cases h1
    exact encryptWith_ok_iff.2 ⟨m, m3, i1, hpl1.read, by rw [hmdeq]; exact h2, by rw [hmdeq]; exact h3,
      by rw [hmdeq]; exact h4, h5⟩
  unfold Proc.editedText
  rw [hg1]
  simp only [hsaved1]

/-- **C39.** If the editor leaves, perhaps after texts that cannot be parsed, a document that is
equal to the one before with the same values in the same order, then the text that is written or
printed is that of the same encrypted file, with all nonces, dates and keys. The condition is
the one of C11: equal values with the same key path have the same nonce. -/
theorem C39_unchanged {P : Proc} (he : EnvLaws P.env) {a : InputArgs} {i : Nat} {es : List Event}
    (h : P.run (.edit a) i = (es, .ok ())) {x : Fmt} (hx : getFormat a.file a.format = .ok x) {s : Str}
    (hs : InputText P a.file s) {f : EncFile x.doc.F} (hf : EncFile.ofText (P.T x) P.O P.env.C s = some f)
    {key : Bytes} {m : RMap Value} {m' : RMap EncLeaf} (hh : Holding P.env (docRep x) f key m m')
    (hu : ∀ (a b : Nat) (p q : List Str) (v : Value) (x y : EncValue), (leaves m)[a]? = some (p, v) → (leaves m)[b]? = some (q, v) →
      (leaves m')[a]? = some (p, .encrypted x) → (leaves m')[b]? = some (q, .encrypted y) →
      pathText p = pathText q → x.nonce = y.nonce)
    {g : DecFile x.doc.F} {p : SavedParameters} (hg : f.decryptAndSave x.doc.F P.env = .ok (g, p))
    {edited : x.doc.F.Map} (hed : Edited (P.T x).parse edited P.editor) (heq : x.doc.F.eq g.map edited = true)
    (hint : x.doc.F.toInternal edited = .ok m) :
    ∃ es1 es2, es = es1 ++ es2 ∧ Between P es1 ∧
      Delivered P (P.stdin == .terminal) a.file (EncFile.toText (P.T x) P.env.C f) es2 := by
  obtain ⟨_, x', s', f', g', p', hx', hs', hf', hg', hrest⟩ := run_edit_ok.1 h
  rw [hx] at hx'
  cases hx'
  cases inputText_unique hs hs'
  rw [hf] at hf'
  cases hf'
  rw [hg] at hg'
  cases hg'
  have hsnd := editSession_snd (map := g.map) fun t => editLoop_edited (t := t) hed
  rcases hrest with hse | ⟨m1, out, es1, es2, hse, hout, rfl, hd⟩
  · rw [hse] at hsnd
    rcases hsnd with h' | ⟨e, h', _⟩ <;> cases h'
  · rw [hse] at hsnd
    have hm1 : m1 = edited := by
      rcases hsnd with h' | ⟨e, h', _⟩
      · cases h'; rfl
      · cases h'
    subst hm1
    refine ⟨es1, es2, rfl, ?_, ?_⟩
    · rcases editSession_shape hse with ⟨h, _⟩ | ⟨_, h⟩
      · exact h
      · cases h
    · rw [editedText_unchanged he hh hu hg heq hint] at hout
      cases hout
      exact hd

/-- **C39.** So if the text of the file is the one rops writes for it, no file is changed. -/
theorem C39_same_files {P : Proc} (he : EnvLaws P.env) (hfresh : FreshTemp P) {a : InputArgs} {i : Nat} {es : List Event}
    (h : P.run (.edit a) i = (es, .ok ())) {x : Fmt} (hx : getFormat a.file a.format = .ok x) {f : EncFile x.doc.F}
    (hs : InputText P a.file (EncFile.toText (P.T x) P.env.C f))
    (hf : EncFile.ofText (P.T x) P.O P.env.C (EncFile.toText (P.T x) P.env.C f) = some f)
    {key : Bytes} {m : RMap Value} {m' : RMap EncLeaf} (hh : Holding P.env (docRep x) f key m m')
    (hu : ∀ (a b : Nat) (p q : List Str) (v : Value) (x y : EncValue), (leaves m)[a]? = some (p, v) → (leaves m)[b]? = some (q, v) →
      (leaves m')[a]? = some (p, .encrypted x) → (leaves m')[b]? = some (q, .encrypted y) →
      pathText p = pathText q → x.nonce = y.nonce)
    {g : DecFile x.doc.F} {p : SavedParameters} (hg : f.decryptAndSave x.doc.F P.env = .ok (g, p))
    {edited : x.doc.F.Map} (hed : Edited (P.T x).parse edited P.editor) (heq : x.doc.F.eq g.map edited = true)
    (hint : x.doc.F.toInternal edited = .ok m) : filesAfter P.file es = P.file := by
  obtain ⟨es1, es2, hes, hb, hd⟩ := C39_unchanged he h hx hs hf hh hu hg hed heq hint
  rw [hes, filesAfter_append, hb.files hfresh]
  rcases hd with ⟨_, p, hp, _, rfl⟩ | ⟨_, _, rfl⟩
  · rcases hs with ⟨p', b, hp', _, hfile, hu⟩ | ⟨_, h, _⟩
    · rw [hp] at hp'
      cases hp'
      funext q
      simp only [filesAfter, List.foldl_cons, List.foldl_nil, effect, Files.put]
      split
      · rename_i h
        rw [h, hfile, utf8_of_utf8? hu]
      · rfl
    · rw [hp] at h
      cases h
  · rfl

/-- An editor that leaves an open brace, after which the user interrupts. -/
example : Cancelled Toy.jsonText.parse [.left (.data (utf8 c!"{")) .key, .left (.data (utf8 c!"")) .interrupted] :=
  .again (utf8?_utf8 _) (by decide +kernel) (.now (utf8?_utf8 _) (by decide +kernel))

/-- The user looks at the small document, leaves an open brace, and then the document as it was:
no file changes. -/
example : ∃ (P : Proc) (es : List Event), P.run (.edit Toy.input) 7 = (es, .ok ()) ∧ (∃ b, .write c!"a.json" b .done ∈ es) ∧
    filesAfter P.file es = P.file := by
  obtain ⟨f, _, m', hb, _, h1, hh, hw, hr⟩ := Toy.encrypted []
  obtain ⟨g, p, _, hgm, hg⟩ := Toy.decrypted hh hr
  let ed : List Attempt := [.left (.data (utf8 c!"{")) .key, .left (.data (utf8 (Toy.mapText Toy.small))) .key]
  have hed : Edited Toy.jsonText.parse Toy.small ed :=
    .again (utf8?_utf8 _) (by decide +kernel) (.now (utf8?_utf8 _) (Toy.jsonText_laws.parse_render Toy.small trivial))
  have hu : ∀ (a b : Nat) (p q : List Str) (v : Value) (x y : EncValue),
      (leaves [(c!"a", .leaf (.string c!"x")), (c!"b_plain", .leaf (.boolean true))])[a]? = some (p, v) →
      (leaves [(c!"a", .leaf (.string c!"x")), (c!"b_plain", .leaf (.boolean true))])[b]? = some (q, v) →
      (leaves m')[a]? = some (p, .encrypted x) → (leaves m')[b]? = some (q, .encrypted y) →
      pathText p = pathText q → x.nonce = y.nonce := by
    rw [show leaves [(c!"a", .leaf (.string c!"x")), (c!"b_plain", .leaf (.boolean true))] =
      [([c!"a"], Value.string c!"x"), ([c!"b_plain"], .boolean true)] from rfl]
    intro a b p q v x y ha hb hx hy _
    have : a = b := by
      rcases a with _ | _ | a <;> rcases b with _ | _ | b <;> first | rfl | (simp at ha hb; done) | skip
      all_goals (simp only [List.getElem?_cons_zero, List.getElem?_cons_succ, Option.some.injEq, Prod.mk.injEq] at ha hb)
      all_goals (obtain ⟨_, rfl⟩ := ha; cases hb.2)
    subst this
    rw [hx] at hy
    cases hy
    rfl
  let P := Toy.proc Toy.rule (EncFile.toText Toy.jsonText Toy.env.C f) ed
  have hx : getFormat Toy.input.file Toy.input.format = .ok .json := by decide +kernel
  have hs : InputText P Toy.input.file (EncFile.toText Toy.jsonText Toy.env.C f) := Toy.proc_input _ _ _
  have heq : Format.json.eq g.map Toy.small = true := by rw [hgm]; decide +kernel
  have hint : Format.json.toInternal Toy.small = .ok [(c!"a", .leaf (.string c!"x")), (c!"b_plain", .leaf (.boolean true))] := rfl
  have hsnd : (P.editSession .json g.map).2 = .ok (some Toy.small) := by
    have h1 := editSession_started (P := P) (x := .json) (map := g.map) (t := c!"/tmp/t") rfl rfl (Toy.proc_editor _ _ _)
    have h2 := editLoop_edited (P := P) (x := .json) (t := c!"/tmp/t") hed
    exact Eq.trans h1 h2
  have hses : ∃ es, P.editSession .json g.map = (es, .ok (some Toy.small)) := by
    revert hsnd
    generalize P.editSession .json g.map = r
    intro h
    exact ⟨r.1, Prod.ext rfl h⟩
  obtain ⟨es1, hses⟩ := hses
  have htext := editedText_unchanged (P := P) (x := .json) (i := 7) Toy.env_laws hh hu hg heq hint
  have hdel : Delivered P (P.stdin == .terminal) Toy.input.file (EncFile.toText Toy.jsonText Toy.env.C f)
      [.write c!"a.json" (utf8 (EncFile.toText Toy.jsonText Toy.env.C f)) .done] := .inl ⟨rfl, _, rfl, rfl, rfl⟩
  have hrun := (run_edit_ok (P := P) (a := Toy.input) (i := 7)).2
    ⟨⟨_, Toy.proc_config _ _⟩, .json, _, f, g, p, hx, hs, h1, hg, .inr ⟨Toy.small, _, _, _, hses, htext, rfl, hdel⟩⟩
  exact ⟨P, _, hrun, ⟨_, List.mem_append_right _ (.head _)⟩,
    C39_same_files (P := P) (x := .json) Toy.env_laws (Toy.fresh _ _ _) hrun hx hs h1 hh hu hg hed heq hint⟩

end Rops.Props
