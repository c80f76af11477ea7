import Verif.Lemmas.YamlLayout
import Verif.Props.YamlFiles
import Verif.Props.Instants
/-!
# C90: the layout of YAML documents
-/

namespace Rops.Props

open Spec

/-- **C90.** A document without tags is read from the text that is written for it if it has at most 128 levels;
if it has more, its text is refused. -/
theorem C90_documents {d : List (Yaml × Yaml)} (hs : YamlSound (.map d)) (hu : UntaggedMap d) :
    blockLayout.ops.parse (blockLayout.ops.render d) = if yamlNesting (.map d) ≤ 128 then some d else none := by
  by_cases h : yamlNesting (.map d) ≤ 128
  · rw [if_pos h]
    exact yaml_parse_render blockLayout_laws ⟨d, rfl, hu, h⟩ hs
  · rw [if_neg h]
    show ((blockLayout.read (blockLayout.write (Yaml.entryNodes d))).bind _).bind _ = _
    rw [layout_back (untaggedMap_ok d hu), entryNodes_depth]
    rw [show (if yamlNestingMap d + 1 ≤ 128 then some (YamlNode.settledMap (Yaml.entryNodes d)) else none) = none from if_neg h]
    rfl

/-- **C90.** What was read is read again from the text that is written for it. -/
theorem C90_stable {s : Str} {d : List (Yaml × Yaml)} (h : blockLayout.ops.parse s = some d) :
    blockLayout.ops.parse (blockLayout.ops.render d) = some d := by
  obtain ⟨h1, h2⟩ := parse_flat h
  rw [C90_documents (yaml_parse_sound h) h1, if_pos h2]

/-- **C90.** Different documents have different texts. -/
theorem C90_injective {d d' : List (Yaml × Yaml)} (hs : YamlSound (.map d)) (hs' : YamlSound (.map d')) (hu : UntaggedMap d) (hu' : UntaggedMap d')
    (hn : yamlNesting (.map d) ≤ 128) (h : blockLayout.ops.render d = blockLayout.ops.render d') : d = d' := by
  have h1 := C90_documents hs hu
  have h2 := C90_documents hs' hu'
  rw [if_pos hn, h, h2] at h1
  split at h1
  · exact (Option.some.inj h1).symm
  · cases h1

/-- **C90.** The text of a document is made of lines of characters that YAML allows. -/
theorem C90_printable {d : List (Yaml × Yaml)} (hu : UntaggedMap d) : ∀ c ∈ blockLayout.ops.render d, c = '\n' ∨
    (' ' ≤ c ∧ c ≤ '~') ∨ (0xa0 ≤ c.toNat ∧ c.toNat ≠ 0xfeff ∧ c.toNat ≠ 0xfffe ∧ c.toNat ≠ 0xffff ∧ c.toNat ≠ 0x2028 ∧ c.toNat ≠ 0x2029) := by
  have hs : ShownLines ((YamlNode.map (Yaml.entryNodes d)).lines 0) := (shown_lines (.map _) (untaggedMap_ok d hu) 0).1
  intro c hc
  have := List.all_eq_true.1 (join_shown hs) c hc
  rw [Bool.or_eq_true] at this
  rcases this with h | h
  · right
    unfold yamlPrintable at h
    simp only [Bool.or_eq_true, Bool.and_eq_true, decide_eq_true_eq, bne_iff_ne] at h
    have e1 : (' ' ≤ c) ↔ 32 ≤ c.toNat := Iff.rfl
    have e2 : (c ≤ '~') ↔ c.toNat ≤ 126 := Iff.rfl
    rw [e1, e2]
    omega
  · exact .inl (by simpa using h)

/-- **C90.** What is assumed of the layout of YAML holds. -/
theorem C90_laws {limit : Nat} (h : 4 < limit) (h' : limit ≤ 129) : YamlLaws blockLayout limit where
  layout := ⟨by
    rintro l ⟨d, t, rfl, hu, ht, hn⟩
    exact blockLayout_laws.read_write _ ⟨d, rfl, hu, by show yamlNestingMap d + 1 ≤ 128; rw [docMap_nesting ht]; omega⟩⟩
  room := h

/-- **C90.** Everything together: however a YAML file is laid out, after `rops encrypt -i` and `rops decrypt -i` the
same document is read from it, and it is formatted as rops formats. Assumed are only that `age` and AWS KMS decrypt what
they encrypt, and that the clock gives dates. -/
theorem C90_kept {E : Env} (hC : E.C = aesGcm) (hH : E.H = sha512) (hage : AgeLaws E.A) (hkms : KmsLaws E.K)
    (hn : ∀ i, (E.nonce i).length = 32) (hkey : ∀ i, (E.newKey i).length = 32) (hfl : E.fl = f64Floats)
    (hc : ∀ i, Calendar (E.clock i)) {O : DocOps} (hO : O.parseDate = chronoDate)
    {T : (x : Fmt) → TextOps x.doc} (hT : T .yaml = blockLayout.ops) {path s s' : Str}
    {P : Proc} {l : EncryptLine} {i : Nat} {d : List (Yaml × Yaml)} {t : RMap Scalar}
    (hr : Ran E O T .yaml path P (.encrypt l) i s s') (hp : blockLayout.ops.parse s = some d)
    (ht : yamlMap d = some t) (htop : c!"sops" ∉ topKeys t) (hcol : NoColon t)
    {P' : Proc} (hP : SameProgram E O T P') (hfile : P'.file path = .data (utf8 s')) (hin : P'.stdin = .terminal)
    {l' : PlaceLine} (hl : l'.input.file = some path) (hpl : l'.inPlace = true)
    (hx : getFormat (some path) l'.input.format = .ok .yaml)
    {config' : Config} (hcf : P'.retrieveConfig l'.input.config = .ok config') (hsave : ∀ b, P'.saves path b = .done)
    {config : Config} (hcf0 : P.retrieveConfig l.input.config = .ok config)
    {ks : List E.A.Identity} (hks : retrievePrivateKeys (Age.parsePrivateKey E.A) P'.env.host c!"age" = .ok ks)
    {k : E.A.Identity} (hk : k ∈ ks)
    (hid : E.A.toPublic k ∈ l.keys.age ∨ ∃ r, ruleFor E.rx config (some path) = some r ∧ E.A.toPublic k ∈ r.keys.age) (i' : Nat) :
    ∃ es s'', P'.run (.decrypt l') i' = (es, .ok ()) ∧ filesAfter P'.file es path = .data (utf8 s'') ∧
      blockLayout.ops.parse s'' = some d ∧ s'' = blockLayout.ops.render d := by
  obtain ⟨hu, hd⟩ := parse_flat hp
  have hd : yamlNestingMap d + 1 ≤ 128 := hd
  rw [docMap_nesting ht] at hd
  obtain ⟨es, h1, h2⟩ := C88_restored (C75_env hC hH hage hkms hn hkey) hfl hc (C76_laws hO) hT (C90_laws (limit := 129) (by omega) (by omega)) hr hp
    ⟨t, ht, htop, hcol, by omega⟩ hP hfile hin hl hpl hx hcf hsave hcf0 hks hk hid i'
  rw [untag_untagged.2.2 d hu] at h2
  exact ⟨es, _, h1, h2, C90_stable hp, rfl⟩

/-- **C90.** Everything together: a YAML file that is formatted as rops formats, without tags, is the same, byte
for byte, after `rops encrypt -i` and `rops decrypt -i`. Assumed are only that `age` and AWS KMS decrypt what they
encrypt, and that the clock gives dates. -/
theorem C90_restored {E : Env} (hC : E.C = aesGcm) (hH : E.H = sha512) (hage : AgeLaws E.A) (hkms : KmsLaws E.K)
    (hn : ∀ i, (E.nonce i).length = 32) (hkey : ∀ i, (E.newKey i).length = 32) (hfl : E.fl = f64Floats)
    (hc : ∀ i, Calendar (E.clock i)) {O : DocOps} (hO : O.parseDate = chronoDate)
    {T : (x : Fmt) → TextOps x.doc} (hT : T .yaml = blockLayout.ops) {path s' : Str}
    {P : Proc} {l : EncryptLine} {i : Nat} {d : List (Yaml × Yaml)}
    (hr : Ran E O T .yaml path P (.encrypt l) i (blockLayout.ops.render d) s') (hs : YamlSound (.map d)) (hu : UntaggedMap d)
    (hd : YamlPortable 129 d)
    {P' : Proc} (hP : SameProgram E O T P') (hfile : P'.file path = .data (utf8 s')) (hin : P'.stdin = .terminal)
    {l' : PlaceLine} (hl : l'.input.file = some path) (hpl : l'.inPlace = true)
    (hx : getFormat (some path) l'.input.format = .ok .yaml)
    {config' : Config} (hcf : P'.retrieveConfig l'.input.config = .ok config') (hsave : ∀ b, P'.saves path b = .done)
    {config : Config} (hcf0 : P.retrieveConfig l.input.config = .ok config)
    {ks : List E.A.Identity} (hks : retrievePrivateKeys (Age.parsePrivateKey E.A) P'.env.host c!"age" = .ok ks)
    {k : E.A.Identity} (hk : k ∈ ks)
    (hid : E.A.toPublic k ∈ l.keys.age ∨ ∃ r, ruleFor E.rx config (some path) = some r ∧ E.A.toPublic k ∈ r.keys.age) (i' : Nat) :
    ∃ es, P'.run (.decrypt l') i' = (es, .ok ()) ∧ filesAfter P'.file es path = .data (utf8 (blockLayout.ops.render d)) :=
  C88_round_trip (C75_env hC hH hage hkms hn hkey) hfl hc (C76_laws hO) hT (C90_laws (by omega) (by omega)) hr hs hd hu hP hfile hin hl hpl hx
    hcf hsave hcf0 hks hk hid i'

/-! ## Concrete cases -/

/-- The plaintext of the tests (yaml/mock.rs:31-44). -/
def mockYamlMap : Str :=
  c!"hello: world!\nnested_map:\n  null_key: null\n  array:\n  - string\n  - nested_map_in_array:\n      integer: 1234\n  - float: 1234.56789\nbooleans:\n- true\n- false\nescape_unencrypted: plaintext\n"

-- what is read from it is written as it
example : (blockLayout.ops.parse mockYamlMap).map blockLayout.ops.render = some mockYamlMap := by decide +kernel

/-- Texts that need quotes, lines, and keys that need more. -/
def quoteDoc : List (Yaml × Yaml) :=
  [(.str c!"a: b", .seq [.str c!"- x", .seq [.str c!" one\ntwo\n\n", .null], .map [(.str c!"k", .num (.posInt 5)), (.str c!"z", .seq [.map [], .seq []])]]),
    (.str c!"m", .map [(.str c!"q\nr", .seq [.str c!"it's", .str c!"#'"]), (.str c!"t", .str c!"one\n two"), (.str c!"bell\x07", .str c!"true")]),
    (.null, .str c!"~"), (.str c!"e", .map []), (.str [], .str c!"0x1f")]

/-- How they are written. -/
def quoteText : Str :=
  c!"'a: b':\n- '- x'\n- - |2+\n     one\n    two\n\n  - null\n- k: 5\n  z:\n  - {}\n  - []\nm:\n  ? |-\n    q\n    r\n  : - it's\n    - '#'''\n  t: |-\n    one\n     two\n  \"bell\\a\": 'true'\nnull: '~'\ne: {}\n'': '0x1f'\n"

example : blockLayout.ops.render quoteDoc = quoteText := by decide +kernel

theorem quoteDoc_sound : YamlSound (.map quoteDoc) := by
  simp only [quoteDoc, YamlSound, YamlSoundMap, YamlSoundSeq, yamlTextKeys]
  simp

theorem quoteDoc_untagged : UntaggedMap quoteDoc := by
  simp [quoteDoc, UntaggedMap, Untagged, UntaggedSeq]

example : blockLayout.ops.parse quoteText = some quoteDoc := by
  rw [show quoteText = blockLayout.ops.render quoteDoc by decide +kernel, C90_documents quoteDoc_sound quoteDoc_untagged,
    if_pos (by decide)]

-- a key of 128 bytes stands before its value, a longer one after a question mark
example : blockLayout.ops.render [(.str (List.replicate 128 'k'), .null)] = List.replicate 128 'k' ++ c!": null\n" ∧
    blockLayout.ops.render [(.str (List.replicate 129 'k'), .null)] = c!"? " ++ List.replicate 129 'k' ++ c!"\n: null\n" := by decide +kernel

/-- Mappings within mappings. -/
def yamlDeep : Nat → List (Yaml × Yaml)
  | 0 => []
  | n + 1 => [(.str c!"a", .map (yamlDeep n))]

theorem yamlDeep_sound : ∀ n, YamlSound (.map (yamlDeep n)) ∧ UntaggedMap (yamlDeep n)
  | 0 => by simp [yamlDeep, YamlSound, YamlSoundMap, yamlTextKeys, UntaggedMap]
  | n + 1 => by
    have ih := yamlDeep_sound n
    refine ⟨?_, ?_⟩
    · have := ih.1
      simp only [yamlDeep, YamlSound, YamlSoundMap, yamlTextKeys] at this ⊢
      simp [this]
    · simp [yamlDeep, UntaggedMap, Untagged, ih.2]

-- a document of 128 levels is read back, a document of 129 levels is written and then refused
example : blockLayout.ops.parse (blockLayout.ops.render (yamlDeep 127)) = some (yamlDeep 127) := by
  rw [C90_documents (yamlDeep_sound _).1 (yamlDeep_sound _).2, if_pos (by decide +kernel)]

example : blockLayout.ops.parse (blockLayout.ops.render (yamlDeep 128)) = none := by
  rw [C90_documents (yamlDeep_sound _).1 (yamlDeep_sound _).2]
  exact if_neg (by decide +kernel)

/-- A file as people lay it out: with comments, empty lines, and other indentation. -/
def looseText : Str :=
  c!"# the box\npin:   \"0042\"   # not a number\n\non: 'true'\nratio: 1.5\ndb:\n      # the port\n      port_plain: 5432\n\n      pw: '1e3'\nl:\n   - true\n   - ~\n   - ''\n"

theorem looseText_read : blockLayout.ops.parse looseText = some boxDoc := by
  have h : (blockLayout.ops.parse looseText).map blockLayout.ops.render = some (blockLayout.ops.render boxDoc) := by decide +kernel
  obtain ⟨d, hd, e⟩ := Option.map_eq_some_iff.1 h
  exact hd.trans (congrArg some (C90_injective (yaml_parse_sound hd) boxDoc_sound (parse_flat hd).1 boxDoc_untagged (parse_flat hd).2 e))

-- and as rops lays it out
example : blockLayout.ops.render boxDoc =
    c!"pin: '0042'\n'on': 'true'\nratio: 1.5\ndb:\n  port_plain: 5432\n  pw: '1e3'\nl:\n- true\n- null\n- ''\n" := by decide +kernel

example : blockLayout.ops.parse (blockLayout.ops.render boxDoc) = some boxDoc := C90_stable looseText_read

-- what is not read: a text that is no mapping, the same key twice, tabs, broken indentation, text after a quoted text
example : (blockLayout.ops.parse c!"a\n").isNone ∧ (blockLayout.ops.parse c!"a: 1\na: 2\n").isNone ∧ (blockLayout.ops.parse c!"a:\tb\n").isNone ∧
    (blockLayout.ops.parse c!"a: 1\n b: 2\n").isNone ∧ (blockLayout.ops.parse c!"a: 'b' c\n").isNone := by decide +kernel

example : YamlLaws blockLayout 129 := C90_laws (by decide) (by decide)

/-- The process of the examples, with AES-256-GCM, SHA-512 and the layout of YAML. -/
def blockProc (content : Str) : Proc :=
  { yamlProc content with
    env := gcmEnv
    T := fun x => match x with
      | .json => serdeFloats.ops
      | .yaml => blockLayout.ops
      | .toml => dayScalars.ops }

theorem blockProc_config (content : Str) : (blockProc content).retrieveConfig none = .ok [yamlRule] := by
  have h : (blockProc []).retrieveConfig none = .ok [yamlRule] := by decide +kernel
  rw [← h]
  refine retrieveConfig_files rfl rfl rfl rfl (fun _ h => nomatch h) (fun _ h => nomatch h) fun dir hd d hm => ?_
  cases hd
  simp only [ancestors, List.mem_cons, List.not_mem_nil, or_false] at hm
  rcases hm with rfl | rfl <;> rfl

theorem looseText_encrypts : ∃ s', Ran gcmEnv Toy.docOps (blockProc []).T .yaml c!"a.yaml" (blockProc looseText)
    (.encrypt yamlEncrypt) 0 looseText s' := by
  let b : Builder Format.yaml := { Toy.smallBuilder with map := boxDoc }
  have hc : (match b.encrypt gcmEnv 0 with
      | .error _ => false
      | .ok _ => true) = true := by
    decide +kernel
  split at hc
  · cases hc
  · rename_i r hr
    obtain ⟨f, j⟩ := r
    refine ⟨EncFile.toText blockLayout.ops gcmEnv.C f, ?_⟩
    have hrun : (blockProc looseText).run (.encrypt yamlEncrypt) 0 =
        ([.write c!"a.yaml" (utf8 (EncFile.toText blockLayout.ops gcmEnv.C f)) .done], .ok ()) :=
      run_encrypt_ok.2 ⟨by decide, by decide, [yamlRule], .yaml, _, boxDoc, f, j, blockProc_config _,
        by decide +kernel, .inl ⟨_, _, rfl, rfl, rfl, utf8?_utf8 _⟩, looseText_read, hr, .inl ⟨rfl, _, rfl, rfl, rfl⟩⟩
    exact {
      program := ⟨⟨Toy.env.host, rfl⟩, rfl, rfl⟩
      target := rfl
      format := by decide +kernel
      run := ⟨_, hrun, by simp [filesAfter, effect, Files.put]⟩
      found := rfl
      config := fun config h => by
        rw [show (Command.encrypt yamlEncrypt).configPath = none from rfl, blockProc_config] at h
        cases h
        intro r hr
        rw [List.mem_singleton] at hr
        subst hr
        exact ⟨⟨fun _ _ => rfl, fun _ h => nomatch h⟩, fun _ h => by cases h; rfl⟩
      keys := ⟨fun _ _ => rfl, fun _ h => nomatch h⟩
      setting := fun p h => nomatch h
      temp := by rintro t ⟨⟩; rfl }

-- `rops encrypt -i --age pk2 a.yaml`, then `rops decrypt -i a.yaml`
example : ∃ s' es, Ran gcmEnv Toy.docOps (blockProc []).T .yaml c!"a.yaml" (blockProc looseText) (.encrypt yamlEncrypt) 0 looseText s' ∧
    (blockProc s').run (.decrypt { input := yamlInput, inPlace := true }) 70 = (es, .ok ()) ∧
    filesAfter (blockProc s').file es c!"a.yaml" =
      .data (utf8 c!"pin: '0042'\n'on': 'true'\nratio: 1.5\ndb:\n  port_plain: 5432\n  pw: '1e3'\nl:\n- true\n- null\n- ''\n") := by
  obtain ⟨s', hr⟩ := looseText_encrypts
  obtain ⟨t, ht, htop, hcol, -⟩ := boxDoc_portable
  obtain ⟨es, s'', h1, h2, -, rfl⟩ := C90_kept (E := gcmEnv) rfl rfl Toy.env_laws.age Toy.env_laws.kms (fun i => natBytes_length 32 i)
    (fun i => Toy.env_laws.key_length i) rfl Toy.env_clock Toy.docOps_date rfl hr looseText_read ht htop hcol
    (P' := blockProc s') ⟨⟨Toy.env.host, rfl⟩, rfl, rfl⟩ rfl rfl
    (l' := { input := yamlInput, inPlace := true }) rfl rfl (by decide +kernel) (blockProc_config _) (fun _ => rfl) (blockProc_config _)
    (ks := [c!"k1"]) rfl (k := c!"k1") (.head _) (.inr ⟨yamlRule, by decide +kernel, by decide⟩) 70
  exact ⟨s', es, hr, h1, h2.trans (by decide +kernel)⟩

end Rops.Props
