import Verif.Spec.Whole
import Verif.Lemmas.Whole
import Verif.Props.YamlLayout
import Verif.Props.TomlDates
/-!
# C91: the program with all of its parts
-/

namespace Rops.Props

open Spec

theorem whole_laws {E : Env} {O : DocOps} {T : (x : Fmt) → TextOps x.doc} (W : Whole E O T) : EnvLaws E :=
  C75_env W.cipher W.hasher W.age W.kms W.nonce W.key

theorem life_document {E : Env} {O : DocOps} {T : (x : Fmt) → TextOps x.doc} {x : Fmt} {path s : Str} {d : x.doc.F.Map}
    (h : Life E O T x path s d) : DocFits x d ∧ ∃ s0, (T x).parse s0 = some d := by
  induction h with
  | encrypted _ hp hd => exact ⟨hd, _, hp⟩
  | keysAdded _ _ ih => exact ih
  | keysRemoved _ _ ih => exact ih
  | refreshed _ _ ih => exact ih
  | cancelled _ _ _ ih => exact ih
  | edited _ _ he hd _ => exact ⟨hd, edited_parsed he⟩

theorem yamlFits {d : List (Yaml × Yaml)} {s : Str} (hp : blockLayout.ops.parse s = some d) (hd : DocFits .yaml d) : YamlPortable 129 d := by
  obtain ⟨t, ht, htop, hcol⟩ := hd
  have hn : yamlNestingMap d + 1 ≤ 128 := (parse_flat hp).2
  rw [docMap_nesting ht] at hn
  exact ⟨t, ht, htop, hcol, by omega⟩

theorem life_json {E : Env} {O : DocOps} {T : (x : Fmt) → TextOps x.doc} (W : Whole E O T) {path s : Str} {d : (Fmt.doc .json).F.Map}
    (h : Life E O T .json path s d) : JsonHistory E O T serdeFloats path s d := by
  induction h with
  | encrypted hr hp hd =>
    rw [W.json] at hp
    exact .encrypted hr hp (C73_portable hp hd.1 hd.2.1 hd.2.2)
  | keysAdded _ hr ih => exact .keysAdded ih hr
  | keysRemoved _ hr ih => exact .keysRemoved ih hr
  | refreshed _ hr ih => exact .refreshed ih hr
  | cancelled _ hr hc ih => rw [W.json] at hc; exact .cancelled ih hr hc
  | edited _ hr he hd ih =>
    rw [W.json] at he
    obtain ⟨_, hp⟩ := edited_parsed he
    exact .edited ih hr he (C73_portable hp hd.1 hd.2.1 hd.2.2)

theorem life_yaml {E : Env} {O : DocOps} {T : (x : Fmt) → TextOps x.doc} (W : Whole E O T) {path s : Str} {d : (Fmt.doc .yaml).F.Map}
    (h : Life E O T .yaml path s d) : YamlHistory E O T blockLayout 129 path s d := by
  induction h with
  | encrypted hr hp hd =>
    rw [W.yaml] at hp
    exact .encrypted hr hp (yamlFits hp hd)
  | keysAdded _ hr ih => exact .keysAdded ih hr
  | keysRemoved _ hr ih => exact .keysRemoved ih hr
  | refreshed _ hr ih => exact .refreshed ih hr
  | cancelled _ hr hc ih => rw [W.yaml] at hc; exact .cancelled ih hr hc
  | edited _ hr he hd ih =>
    rw [W.yaml] at he
    obtain ⟨_, hp⟩ := edited_parsed he
    exact .edited ih hr he (yamlFits hp hd)

theorem life_toml {E : Env} {O : DocOps} {T : (x : Fmt) → TextOps x.doc} (W : Whole E O T) {path s : Str} {d : (Fmt.doc .toml).F.Map}
    (h : Life E O T .toml path s d) : TomlHistory E O T rustToml path s d := by
  induction h with
  | encrypted hr hp hd => rw [W.toml] at hp; exact .encrypted hr hp hd
  | keysAdded _ hr ih => exact .keysAdded ih hr
  | keysRemoved _ hr ih => exact .keysRemoved ih hr
  | refreshed _ hr ih => exact .refreshed ih hr
  | cancelled _ hr hc ih => rw [W.toml] at hc; exact .cancelled ih hr hc
  | edited _ hr he hd ih => rw [W.toml] at he; exact .edited ih hr he hd

/-- **C91.** Whatever commands a file went through since its document was encrypted or edited, in any format, `rops decrypt` by
a recipient gives exactly the text that is written for this document (in TOML, with texts in place of dates). Nothing is assumed but
that `age` and AWS KMS decrypt what they encrypt, that keys and nonces have 32 bytes, and that the clock gives dates. -/
theorem C91_decrypted {E : Env} {O : DocOps} {T : (x : Fmt) → TextOps x.doc} (W : Whole E O T) {x : Fmt} {path s : Str} {d : x.doc.F.Map}
    (h : Life E O T x path s d)
    {P : Proc} (hP : SameProgram E O T P) (hfile : P.file path = .data (utf8 s)) (hin : P.stdin = .terminal)
    {l : PlaceLine} (hl : l.input.file = some path) (hx : getFormat (some path) l.input.format = .ok x)
    {config : Config} (hcf : P.retrieveConfig l.input.config = .ok config)
    (hsave : ∀ b, P.saves path b = .done) (hout : l.inPlace = false → P.stdout = none)
    {f : EncFile x.doc.F} (hf : EncFile.ofText (T x) O E.C s = some f)
    {ks : List E.A.Identity} (hks : retrievePrivateKeys (Age.parsePrivateKey E.A) P.env.host c!"age" = .ok ks)
    {k : E.A.Identity} (hk : k ∈ ks) (hid : E.A.toPublic k ∈ keyIds f.metadata.integration .age) (i : Nat) :
    ∃ es, P.run (.decrypt l) i = (es, .ok ()) ∧ Delivered P l.inPlace (some path) ((T x).render (GivenBack x d)) es := by
  cases x with
  | json =>
    rw [W.json] at hf ⊢
    exact C72_decrypted (whole_laws W) W.clock (C76_laws W.dates) W.json (by rw [W.floats]; exact C73_json_laws) (life_json W h) hP hfile hin hl hx hcf
      hsave hout hf hks hk hid i
  | yaml =>
    obtain ⟨-, s0, h0⟩ := life_document h
    rw [W.yaml] at hf h0 ⊢
    obtain ⟨es, h1, h2⟩ := C88_decrypted (whole_laws W) W.floats W.clock (C76_laws W.dates) W.yaml (C90_laws (by decide) (by decide)) (life_yaml W h) hP
      hfile hin hl hx hcf hsave hout hf hks hk hid i
    rw [untag_untagged.2.2 _ (parse_flat h0).1] at h2
    exact ⟨es, h1, h2⟩
  | toml =>
    rw [W.toml] at hf ⊢
    exact C82_decrypted (whole_laws W) W.clock (C76_laws W.dates) W.toml (by rw [W.floats]; exact C86_laws) (life_toml W h) hP hfile hin hl hx hcf
      hsave hout hf hks hk hid i

/-- **C91.** The document that is given back is read from the text that is written for it. -/
theorem C91_read {E : Env} {O : DocOps} {T : (x : Fmt) → TextOps x.doc} (W : Whole E O T) {x : Fmt} {s : Str} {d : x.doc.F.Map}
    (hp : (T x).parse s = some d) (hd : DocFits x d) : (T x).parse ((T x).render (GivenBack x d)) = some (GivenBack x d) := by
  cases x with
  | json =>
    rw [W.json] at hp ⊢
    exact parse_render_kept (portable_kept hp (C73_portable hp hd.1 hd.2.1 hd.2.2))
  | yaml =>
    rw [W.yaml] at hp ⊢
    exact C90_stable hp
  | toml =>
    rw [W.toml] at hp ⊢
    have hd : TomlPortable rustToml d := hd
    have hs : TomlSound rustToml (.table d) := sound_of_read (fun t f hf => by
      obtain ⟨x, hx, rfl⟩ := readFloat_show hf
      exact float_kept _ hx) (fun t x h => rustToml_kept h) _ (parse_read hp)
    exact (toml_parse_render ⟨undated_sound.1 _ hs, by
      show tomlLevels (tomlUndated (.table d)) < _
      rw [undated_levels.1]; exact hd.levels⟩).trans (congrArg some (order_of_valuesFirst.2.2 _ (undated_order.2.2 d hd.order).1))

/-- **C91.** However a file is laid out, after `rops encrypt -i` and `rops decrypt -i` the same document is read from it (in TOML, with
texts in place of dates), and it is formatted as rops formats. Whoever holds the key of a recipient that was given on the
command line or by the rule for the path may decrypt. -/
theorem C91_kept {E : Env} {O : DocOps} {T : (x : Fmt) → TextOps x.doc} (W : Whole E O T) {x : Fmt} {path s s' : Str} {d : x.doc.F.Map}
    {P : Proc} {l : EncryptLine} {i : Nat}
    (hr : Ran E O T x path P (.encrypt l) i s s') (hp : (T x).parse s = some d) (hd : DocFits x d)
    {P' : Proc} (hP : SameProgram E O T P') (hfile : P'.file path = .data (utf8 s')) (hin : P'.stdin = .terminal)
    {l' : PlaceLine} (hl : l'.input.file = some path) (hpl : l'.inPlace = true)
    (hx : getFormat (some path) l'.input.format = .ok x)
    {config' : Config} (hcf : P'.retrieveConfig l'.input.config = .ok config') (hsave : ∀ b, P'.saves path b = .done)
    {config : Config} (hcf0 : P.retrieveConfig l.input.config = .ok config)
    {ks : List E.A.Identity} (hks : retrievePrivateKeys (Age.parsePrivateKey E.A) P'.env.host c!"age" = .ok ks)
    {k : E.A.Identity} (hk : k ∈ ks)
    (hid : E.A.toPublic k ∈ l.keys.age ∨ ∃ r, ruleFor E.rx config (some path) = some r ∧ E.A.toPublic k ∈ r.keys.age) (i' : Nat) :
    ∃ es s'', P'.run (.decrypt l') i' = (es, .ok ()) ∧ filesAfter P'.file es path = .data (utf8 s'') ∧
      s'' = (T x).render (GivenBack x d) ∧ (T x).parse s'' = some (GivenBack x d) := by
  suffices h : ∃ es, P'.run (.decrypt l') i' = (es, .ok ()) ∧ filesAfter P'.file es path = .data (utf8 ((T x).render (GivenBack x d))) by
    obtain ⟨es, h1, h2⟩ := h
    exact ⟨es, _, h1, h2, rfl, C91_read W hp hd⟩
  cases x with
  | json =>
    rw [W.json] at hp ⊢
    have hJ : JsonFloatLaws serdeFloats E.fl := by rw [W.floats]; exact C73_json_laws
    have hq := C73_portable hp hd.1 hd.2.1 hd.2.2
    have hh : JsonHistory E O T serdeFloats path s' d := .encrypted hr hp hq
    obtain ⟨m, hm, hkd, _⟩ := C72_history W.json hJ hh
    obtain ⟨config1, f, hc1, hf, ha, _⟩ := C51_recipients (x := .json) (whole_laws W) W.clock (C76_laws W.dates) hr (by rw [W.json]; exact hp) hm
      (portable_keepable hJ hp hq hm) (by rw [W.json]; exact readBack_of_kept hkd hm _)
    rw [hcf0] at hc1
    cases hc1
    obtain ⟨es, h1, h2⟩ := C72_decrypted (whole_laws W) W.clock (C76_laws W.dates) W.json hJ hh hP hfile hin hl hx hcf hsave
      (fun h => by rw [hpl] at h; cases h) (by rw [← W.json]; exact hf) hks hk ((ha _).2 hid) i'
    refine ⟨es, h1, ?_⟩
    rcases h2 with ⟨_, p, hp, _, rfl⟩ | ⟨hn, _⟩
    · cases hp
      simp [filesAfter, effect, Files.put, GivenBack]
    · rw [hpl] at hn; cases hn
  | yaml =>
    rw [W.yaml] at hp ⊢
    obtain ⟨es, h1, h2⟩ := C88_restored (whole_laws W) W.floats W.clock (C76_laws W.dates) W.yaml (C90_laws (by decide) (by decide)) hr hp
      (yamlFits hp hd) hP hfile hin hl hpl hx hcf hsave hcf0 hks hk hid i'
    rw [untag_untagged.2.2 _ (parse_flat hp).1] at h2
    exact ⟨es, h1, h2⟩
  | toml =>
    rw [W.toml] at hp ⊢
    exact C82_restored (whole_laws W) W.clock (C76_laws W.dates) W.toml (by rw [W.floats]; exact C86_laws) hr hp hd hP hfile hin hl hpl hx hcf
      hsave hcf0 hks hk hid i'

/-- **C91.** A file that is formatted as rops formats, in any format, is the same, byte for byte, after `rops encrypt -i` and
`rops decrypt -i`, if it has no dates of TOML. -/
theorem C91_round_trip {E : Env} {O : DocOps} {T : (x : Fmt) → TextOps x.doc} (W : Whole E O T) {x : Fmt} {path s s' : Str} {d : x.doc.F.Map}
    {P : Proc} {l : EncryptLine} {i : Nat}
    (hr : Ran E O T x path P (.encrypt l) i s s') (hp : (T x).parse s = some d) (hd : DocFits x d)
    (hs : s = (T x).render d) (hg : GivenBack x d = d)
    {P' : Proc} (hP : SameProgram E O T P') (hfile : P'.file path = .data (utf8 s')) (hin : P'.stdin = .terminal)
    {l' : PlaceLine} (hl : l'.input.file = some path) (hpl : l'.inPlace = true)
    (hx : getFormat (some path) l'.input.format = .ok x)
    {config' : Config} (hcf : P'.retrieveConfig l'.input.config = .ok config') (hsave : ∀ b, P'.saves path b = .done)
    {config : Config} (hcf0 : P.retrieveConfig l.input.config = .ok config)
    {ks : List E.A.Identity} (hks : retrievePrivateKeys (Age.parsePrivateKey E.A) P'.env.host c!"age" = .ok ks)
    {k : E.A.Identity} (hk : k ∈ ks)
    (hid : E.A.toPublic k ∈ l.keys.age ∨ ∃ r, ruleFor E.rx config (some path) = some r ∧ E.A.toPublic k ∈ r.keys.age) (i' : Nat) :
    ∃ es, P'.run (.decrypt l') i' = (es, .ok ()) ∧ filesAfter P'.file es path = .data (utf8 s) := by
  obtain ⟨es, s'', h1, h2, h3, -⟩ := C91_kept W hr hp hd hP hfile hin hl hpl hx hcf hsave hcf0 hks hk hid i'
  rw [hg, ← hs] at h3
  rw [h3] at h2
  exact ⟨es, h1, h2⟩

/-! ## A file -/

/-- The texts of the three formats. -/
def wholeTexts : (x : Fmt) → TextOps x.doc
  | .json => serdeFloats.ops
  | .yaml => blockLayout.ops
  | .toml => rustToml.ops

/-- The program with all of its parts, with toys for `age` and AWS KMS. -/
theorem wholeProgram : Whole gcmEnv Toy.docOps wholeTexts where
  cipher := rfl
  hasher := rfl
  floats := rfl
  dates := Toy.docOps_date
  json := rfl
  yaml := rfl
  toml := rfl
  age := Toy.env_laws.age
  kms := Toy.env_laws.kms
  nonce i := natBytes_length 32 i
  key i := Toy.env_laws.key_length i
  clock := Toy.env_clock

/-- The process of the example. -/
def wholeProc (content : Str) : Proc := { tomlProc content with env := gcmEnv, T := wholeTexts }

theorem wholeProc_config (content : Str) : (wholeProc content).retrieveConfig none = .ok [tomlRule] := by
  have h : (wholeProc []).retrieveConfig none = .ok [tomlRule] := by decide +kernel
  rw [← h]
  refine retrieveConfig_files rfl rfl rfl rfl (fun _ h => nomatch h) (fun _ h => nomatch h) fun dir hd d hm => ?_
  cases hd
  simp only [ancestors, List.mem_cons, List.not_mem_nil, or_false] at hm
  rcases hm with rfl | rfl <;> rfl

theorem looseToml_read : rustToml.ops.parse looseToml = some (tidyDoc (.datetime c!"1979-05-27")) := parsed_same (by decide +kernel)

theorem tidyToml_read : rustToml.ops.parse tidyToml = some (tidyDoc (.str c!"1979-05-27")) := parsed_same (by decide +kernel)

theorem tidyDoc_fits {w : Toml} (hw : w = .datetime c!"1979-05-27" ∨ w = .str c!"1979-05-27") : DocFits .toml (tidyDoc w) :=
  have h := tidyDoc_portable hw
  (⟨h.sops, h.colon, h.levels, h.order⟩ : TomlPortable rustToml (tidyDoc w))

theorem wholeProc_encrypts {s : Str} {w : Toml} (hp : rustToml.ops.parse s = some (tidyDoc w))
    (hw : w = .datetime c!"1979-05-27" ∨ w = .str c!"1979-05-27") :
    ∃ s' f, Ran gcmEnv Toy.docOps wholeTexts .toml c!"a.toml" (wholeProc s) (.encrypt tomlEncrypt) 0 s s' ∧
      s' = EncFile.toText rustToml.ops aesGcm f ∧ c!"pk1" ∈ keyIds f.metadata.integration .age := by
  let b : Builder Format.toml := { Toy.smallBuilder with map := tidyDoc w }
  have hc : (match b.encrypt gcmEnv 0 with
      | .error _ => false
      | .ok r => decide (c!"pk1" ∈ keyIds r.1.metadata.integration .age)) = true := by
    rcases hw with rfl | rfl
    · decide +kernel
    · decide +kernel
  split at hc
  · cases hc
  · rename_i r hr
    obtain ⟨f, j⟩ := r
    refine ⟨_, f, ?_, rfl, of_decide_eq_true hc⟩
    have hrun : (wholeProc s).run (.encrypt tomlEncrypt) 0 =
        ([.write c!"a.toml" (utf8 (EncFile.toText rustToml.ops aesGcm f)) .done], .ok ()) :=
      run_encrypt_ok.2 ⟨by decide, by decide, [tomlRule], .toml, _, tidyDoc w, f, j, wholeProc_config _,
        by decide +kernel, .inl ⟨_, _, rfl, rfl, rfl, utf8?_utf8 s⟩, hp, hr, .inl ⟨rfl, _, rfl, rfl, rfl⟩⟩
    exact {
      program := ⟨⟨Toy.env.host, rfl⟩, rfl, rfl⟩
      target := rfl
      format := by decide +kernel
      run := ⟨_, hrun, by simp [filesAfter, effect, Files.put]⟩
      found := rfl
      config := fun config h => by
        rw [show (Command.encrypt tomlEncrypt).configPath = none from rfl, wholeProc_config] at h
        cases h
        intro r hr
        rw [List.mem_singleton] at hr
        subst hr
        exact ⟨⟨fun _ _ => rfl, fun _ h => nomatch h⟩, fun _ h => by cases h; rfl⟩
      keys := ⟨fun _ _ => rfl, fun _ h => nomatch h⟩
      setting := fun p h => nomatch h
      temp := by rintro t ⟨⟩; rfl }

-- `rops encrypt -i --age pk2 a.toml`, then `rops decrypt -i a.toml`: the file is tidy, and its date is a text
example : ∃ s' es, Ran gcmEnv Toy.docOps wholeTexts .toml c!"a.toml" (wholeProc looseToml) (.encrypt tomlEncrypt) 0 looseToml s' ∧
    (wholeProc s').run (.decrypt { input := tomlInput, inPlace := true }) 70 = (es, .ok ()) ∧
    filesAfter (wholeProc s').file es c!"a.toml" = .data (utf8 tidyToml) := by
  obtain ⟨s', f, hr, -⟩ := wholeProc_encrypts looseToml_read (.inl rfl)
  obtain ⟨es, s'', h1, h2, h3, -⟩ := C91_kept wholeProgram hr looseToml_read (tidyDoc_fits (.inl rfl)) (P' := wholeProc s')
    ⟨⟨Toy.env.host, rfl⟩, rfl, rfl⟩ rfl rfl (l' := { input := tomlInput, inPlace := true }) rfl rfl (by decide +kernel)
    (wholeProc_config _) (fun _ => rfl) (wholeProc_config _) (ks := [c!"k1"]) rfl (k := c!"k1") (.head _)
    (.inr ⟨tomlRule, by decide +kernel, by decide⟩) 70
  refine ⟨s', es, hr, h1, ?_⟩
  rw [h2, h3]
  exact congrArg (fun s => Entry.data (utf8 s)) tidyToml_rendered

-- again: now it is the same
example : ∃ s' es, Ran gcmEnv Toy.docOps wholeTexts .toml c!"a.toml" (wholeProc tidyToml) (.encrypt tomlEncrypt) 0 tidyToml s' ∧
    (wholeProc s').run (.decrypt { input := tomlInput, inPlace := true }) 70 = (es, .ok ()) ∧
    filesAfter (wholeProc s').file es c!"a.toml" = .data (utf8 tidyToml) := by
  obtain ⟨s', f, hr, -⟩ := wholeProc_encrypts tidyToml_read (.inr rfl)
  obtain ⟨es, h1, h2⟩ := C91_round_trip wholeProgram hr tidyToml_read (tidyDoc_fits (.inr rfl)) tidyToml_rendered.symm rfl (P' := wholeProc s')
    ⟨⟨Toy.env.host, rfl⟩, rfl, rfl⟩ rfl rfl (l' := { input := tomlInput, inPlace := true }) rfl rfl (by decide +kernel)
    (wholeProc_config _) (fun _ => rfl) (wholeProc_config _) (ks := [c!"k1"]) rfl (k := c!"k1") (.head _)
    (.inr ⟨tomlRule, by decide +kernel, by decide⟩) 70
  exact ⟨s', es, hr, h1, h2⟩

end Rops.Props
