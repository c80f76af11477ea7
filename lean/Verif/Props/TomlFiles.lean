import Verif.Lemmas.TomlFiles
import Verif.Lemmas.ToyHistory
import Verif.Props.TomlText
import Verif.Props.Floats
/-!
# C82: TOML files, with the syntax of TOML
-/

namespace Rops.Props
open Spec

/-- **C82.** With the floats of Rust nothing is assumed of the scalars but that the text of no date is
"null". -/
theorem C82_scalars {date : Str → Option Str} (hd : ∀ t x, date t = some x → x ≠ c!"null") :
    TomlScalarLaws (rustScalars date) f64Floats := rustScalars_laws hd

theorem dayScalars_laws : TomlScalarLaws dayScalars f64Floats := C82_scalars fun t x h => by
  unfold dayOnly at h
  split at h
  · rename_i ht
    cases h
    rcases ht with rfl | rfl <;> decide
  · cases h

/-- **C82.** An encrypted TOML file for a document that was read from a text is read from the text
that is written for it. -/
theorem C82_file {O : DocOps} (hO : DocLaws O) {S : TomlScalars} {env : Env} (hS : TomlScalarLaws S env.fl) {s : Str}
    {d : List (Str × Toml)} (hp : S.ops.parse s = some d) (hd : TomlPortable S d) {m : RMap Value} (hm : Toml.toMap d = .ok m)
    {f : EncFile Format.toml} {key : Bytes} {rep : Value → Prop} {m' : RMap EncLeaf} (hh : Holding env rep f key m m')
    (hw : EncWritable O env.C f.metadata) : EncFile.ofText S.ops O env.C (EncFile.toText S.ops env.C f) = some f := by
  have hk := toml_keepable hS hp hd hm
  have hsh : shapeMap m' = shapeMap m := hh.sealed.standsFor.1
  have hkeys : m'.map Prod.fst = m.map Prod.fst := by rw [← shapeMap_keys m', hsh, shapeMap_keys]
  obtain ⟨f', h1, h2, h3⟩ := C44_toml (T := S.ops) hO (C81_laws S) (f := (show EncFile DocFormat.toml.F from f)) hh.written
    (by unfold topKeys; rw [hkeys]; exact (hk.toml rfl).1) hw (toml_writable hS hp hd hm hh.sealed.standsFor hh.written)
  have hre : tomlReread m' = m' := by
    unfold tomlReread
    rw [List.filter_eq_self.2 fun e he => by
      have : e.1 ∈ m.map Prod.fst := hkeys ▸ List.mem_map_of_mem he
      simp only [bne_iff_ne, ne_eq]
      intro h
      rw [h] at this
      exact hk.sops this]
    exact tomlMapOrder_eq (valuesFirst_of_shape.2.2 m m' hsh.symm (hk.toml rfl).2)
  rw [hre, show Format.toml.encOfInternal env.C m' = some f.map from hh.written] at h3
  rw [h1]
  obtain ⟨fm, fd⟩ := f
  obtain ⟨fm', fd'⟩ := f'
  simp only [Option.some.injEq] at h2 h3
  rw [h3]
  exact congrArg some (congrArg _ h2)

/-- **C82.** What a history of a TOML file says of its document, it says of the values in it: the
theorems on histories (C51, C52) hold with nothing assumed of the syntax but how floats and dates are
read. -/
theorem C82_history {E : Env} {O : DocOps} {T : (x : Fmt) → TextOps x.doc} {S : TomlScalars} (hT : T .toml = S.ops)
    (hS : TomlScalarLaws S E.fl) {path s : Str} {d : List (Str × Toml)} (h : TomlHistory E O T S path s d) :
    ∃ m, Toml.toMap d = .ok m ∧ Kept E O T .toml path s m := by
  suffices h' : ∃ s0 m, S.ops.parse s0 = some d ∧ TomlPortable S d ∧ Toml.toMap d = .ok m ∧ Kept E O T .toml path s m by
    obtain ⟨_, m, _, _, hm, hk⟩ := h'
    exact ⟨m, hm, hk⟩
  induction h with
  | encrypted hr hp hd =>
    rename_i P l i s s' d
    obtain ⟨⟨host, hE⟩, h2, h3⟩ := id hr.program
    obtain ⟨es, hrun, ha⟩ := hr.run
    obtain ⟨hin, ht⟩ : l.inPlace = true ∧ l.input.file = some path := by
      have ht := hr.target
      unfold target at ht
      simp only at ht
      split at ht
      · rename_i hin; exact ⟨hin, ht⟩
      · cases ht
    obtain ⟨config, map', f1, j, hcf, hp', hf1, _⟩ := encrypted_in_place hrun hin ht hr.format hr.found ha
    rw [h3, hT] at hp'
    cases Option.some.inj (hp.symm.trans hp')
    obtain ⟨m, _, _, _, _, hm, _⟩ := Builder.encrypt_ok hf1
    exact ⟨_, m, hp, hd, hm, .encrypted hr (by rw [hT]; exact hp) hm (toml_keepable hS hp hd hm)
      (by rw [hT]; exact toml_readBack hS hp hd hm _)⟩
  | keysAdded _ hr ih =>
    obtain ⟨s0, m, hp, hd, hm, h⟩ := ih
    exact ⟨s0, m, hp, hd, hm, .keysAdded h hr (by rw [hT]; exact toml_readBack hS hp hd hm _)⟩
  | keysRemoved _ hr ih =>
    obtain ⟨s0, m, hp, hd, hm, h⟩ := ih
    exact ⟨s0, m, hp, hd, hm, .keysRemoved h hr (by rw [hT]; exact toml_readBack hS hp hd hm _)⟩
  | refreshed _ hr ih =>
    obtain ⟨s0, m, hp, hd, hm, h⟩ := ih
    exact ⟨s0, m, hp, hd, hm, .refreshed h hr (by rw [hT]; exact toml_readBack hS hp hd hm _)⟩
  | cancelled _ hr hc ih =>
    obtain ⟨s0, m, hp, hd, hm, h⟩ := ih
    exact ⟨s0, m, hp, hd, hm, .cancelled h hr (by rw [hT]; exact hc)⟩
  | edited _ hr hed hd ih =>
    rename_i P a i s s' d d' _
    obtain ⟨_, _, _, _, _, h⟩ := ih
    obtain ⟨⟨host, hE⟩, h2, h3⟩ := id hr.program
    obtain ⟨m, hm⟩ := edited_internal hr.own (other := (show Fmt.toml.doc.F.Map from d')) (by rw [h3, hT]; exact hed)
    obtain ⟨t, ht⟩ := edited_parsed hed
    exact ⟨t, m, ht, hd, hm, .edited h hr (by rw [hT]; exact hed) hm (toml_keepable hS ht hd hm)
      (by rw [hT]; exact toml_readBack hS ht hd hm _)⟩

/-- **C82.** Whatever commands a TOML file went through since its document was encrypted or edited,
`rops decrypt` by a recipient gives exactly the text that is written for this document with texts in
place of dates. -/
theorem C82_decrypted {E : Env} (he : EnvLaws E) (hc : ∀ i, Calendar (E.clock i)) {O : DocOps} (hO : DocLaws O)
    {T : (x : Fmt) → TextOps x.doc} {S : TomlScalars} (hT : T .toml = S.ops) (hS : TomlScalarLaws S E.fl) {path s : Str}
    {d : List (Str × Toml)} (h : TomlHistory E O T S path s d)
    {P : Proc} (hP : SameProgram E O T P) (hfile : P.file path = .data (utf8 s)) (hin : P.stdin = .terminal)
    {l : PlaceLine} (hl : l.input.file = some path) (hx : getFormat (some path) l.input.format = .ok .toml)
    {config : Config} (hcf : P.retrieveConfig l.input.config = .ok config)
    (hsave : ∀ b, P.saves path b = .done) (hout : l.inPlace = false → P.stdout = none)
    {f : EncFile Format.toml} (hf : EncFile.ofText S.ops O E.C s = some f)
    {ks : List E.A.Identity} (hks : retrievePrivateKeys (Age.parsePrivateKey E.A) P.env.host c!"age" = .ok ks)
    {k : E.A.Identity} (hk : k ∈ ks) (hid : E.A.toPublic k ∈ keyIds f.metadata.integration .age) (i : Nat) :
    ∃ es, P.run (.decrypt l) i = (es, .ok ()) ∧ Delivered P l.inPlace (some path) (S.ops.render (tomlUndatedMap d)) es := by
  obtain ⟨m, hm, h⟩ := C82_history hT hS h
  obtain ⟨map, es, h1, _, h3, h4⟩ := C51_document_kept (x := .toml) he hc hO h hP hfile hin hl hx hcf hsave hout
    (by rw [hT]; exact hf) hks hk hid i
  have h3 : Toml.ofMap Toml.ofValue m = map := Option.some.inj h3
  rw [hT, ← h3, (Toml.to_facts.2.2 d m hm).1] at h4
  exact ⟨es, h1, h4⟩

/-- **C82.** A TOML file is what is written for its document, with texts in place of dates, after
`rops encrypt -i` and `rops decrypt -i`; whoever holds the key of a recipient that was given on the
command line or by the rule for the path may decrypt. -/
theorem C82_restored {E : Env} (he : EnvLaws E) (hc : ∀ i, Calendar (E.clock i)) {O : DocOps} (hO : DocLaws O)
    {T : (x : Fmt) → TextOps x.doc} {S : TomlScalars} (hT : T .toml = S.ops) (hS : TomlScalarLaws S E.fl) {path s s' : Str}
    {P : Proc} {l : EncryptLine} {i : Nat} {d : List (Str × Toml)}
    (hr : Ran E O T .toml path P (.encrypt l) i s s') (hp : S.ops.parse s = some d) (hd : TomlPortable S d)
    {P' : Proc} (hP : SameProgram E O T P') (hfile : P'.file path = .data (utf8 s')) (hin : P'.stdin = .terminal)
    {l' : PlaceLine} (hl : l'.input.file = some path) (hpl : l'.inPlace = true)
    (hx : getFormat (some path) l'.input.format = .ok .toml)
    {config' : Config} (hcf : P'.retrieveConfig l'.input.config = .ok config') (hsave : ∀ b, P'.saves path b = .done)
    {config : Config} (hcf0 : P.retrieveConfig l.input.config = .ok config)
    {ks : List E.A.Identity} (hks : retrievePrivateKeys (Age.parsePrivateKey E.A) P'.env.host c!"age" = .ok ks)
    {k : E.A.Identity} (hk : k ∈ ks)
    (hid : E.A.toPublic k ∈ l.keys.age ∨ ∃ r, ruleFor E.rx config (some path) = some r ∧ E.A.toPublic k ∈ r.keys.age) (i' : Nat) :
    ∃ es, P'.run (.decrypt l') i' = (es, .ok ()) ∧
      filesAfter P'.file es path = .data (utf8 (S.ops.render (tomlUndatedMap d))) := by
  have hh : TomlHistory E O T S path s' d := .encrypted hr hp hd
  obtain ⟨m, hm, _⟩ := C82_history hT hS hh
  obtain ⟨config1, f, hc1, hf, ha, _⟩ := C51_recipients (x := .toml) he hc hO hr (by rw [hT]; exact hp) hm
    (toml_keepable hS hp hd hm) (by rw [hT]; exact toml_readBack hS hp hd hm _)
  rw [hcf0] at hc1
  cases hc1
  obtain ⟨es, h1, h2⟩ := C82_decrypted he hc hO hT hS hh hP hfile hin hl hx hcf hsave (fun h => by rw [hpl] at h; cases h)
    (by rw [← hT]; exact hf) hks hk ((ha _).2 hid) i'
  refine ⟨es, h1, ?_⟩
  rcases h2 with ⟨_, p, hp, _, rfl⟩ | ⟨hn, _⟩
  · cases hp
    simp [filesAfter, effect, Files.put]
  · rw [hpl] at hn; cases hn

/-- **C82.** A TOML file that is formatted as rops formats and has no dates is the same, byte for byte,
after `rops encrypt -i` and `rops decrypt -i`. -/
theorem C82_round_trip {E : Env} (he : EnvLaws E) (hc : ∀ i, Calendar (E.clock i)) {O : DocOps} (hO : DocLaws O)
    {T : (x : Fmt) → TextOps x.doc} {S : TomlScalars} (hT : T .toml = S.ops) (hS : TomlScalarLaws S E.fl) {path s' : Str}
    {P : Proc} {l : EncryptLine} {i : Nat} {d : List (Str × Toml)}
    (hr : Ran E O T .toml path P (.encrypt l) i (S.ops.render d) s') (hs : TomlSound S (.table d)) (hd : TomlPortable S d)
    (hdates : ∀ p x, (p, .date x) ∉ leaves (tomlMap d))
    {P' : Proc} (hP : SameProgram E O T P') (hfile : P'.file path = .data (utf8 s')) (hin : P'.stdin = .terminal)
    {l' : PlaceLine} (hl : l'.input.file = some path) (hpl : l'.inPlace = true)
    (hx : getFormat (some path) l'.input.format = .ok .toml)
    {config' : Config} (hcf : P'.retrieveConfig l'.input.config = .ok config') (hsave : ∀ b, P'.saves path b = .done)
    {config : Config} (hcf0 : P.retrieveConfig l.input.config = .ok config)
    {ks : List E.A.Identity} (hks : retrievePrivateKeys (Age.parsePrivateKey E.A) P'.env.host c!"age" = .ok ks)
    {k : E.A.Identity} (hk : k ∈ ks)
    (hid : E.A.toPublic k ∈ l.keys.age ∨ ∃ r, ruleFor E.rx config (some path) = some r ∧ E.A.toPublic k ∈ r.keys.age) (i' : Nat) :
    ∃ es, P'.run (.decrypt l') i' = (es, .ok ()) ∧ filesAfter P'.file es path = .data (utf8 (S.ops.render d)) := by
  have hp : S.ops.parse (S.ops.render d) = some d :=
    (toml_parse_render ⟨hs, hd.levels⟩).trans (congrArg some (order_of_valuesFirst.2.2 d hd.order))
  have := C82_restored he hc hO hT hS hr hp hd hP hfile hin hl hpl hx hcf hsave hcf0 hks hk hid i'
  rwa [undated_of_none.2.2 d [] hdates] at this

/-! ## A file -/

mutual
/-- Whether two values are the same, for the examples. -/
def tomlSame : Toml → Toml → Bool
  | .str a, .str b => a == b
  | .int a, .int b => a == b
  | .float a, .float b => a == b
  | .bool a, .bool b => a == b
  | .datetime a, .datetime b => a == b
  | .array a, .array b => tomlSameSeq a b
  | .table a, .table b => tomlSameMap a b
  | _, _ => false
/-- See `tomlSame`. -/
def tomlSameSeq : List Toml → List Toml → Bool
  | [], [] => true
  | a :: r, b :: r' => tomlSame a b && tomlSameSeq r r'
  | _, _ => false
/-- See `tomlSame`. -/
def tomlSameMap : List (Str × Toml) → List (Str × Toml) → Bool
  | [], [] => true
  | (k, a) :: r, (k', b) :: r' => k == k' && tomlSame a b && tomlSameMap r r'
  | _, _ => false
end

theorem tomlSame_eq : (∀ a b : Toml, tomlSame a b = true → a = b) ∧ (∀ a b : List Toml, tomlSameSeq a b = true → a = b) ∧
    (∀ a b : List (Str × Toml), tomlSameMap a b = true → a = b) := by
  apply Toml.induct
  · intro s b h; cases b <;> simp_all [tomlSame]
  · intro s b h; cases b <;> simp_all [tomlSame]
  · intro s b h; cases b <;> simp_all [tomlSame]
  · intro s b h; cases b <;> simp_all [tomlSame]
  · intro s b h; cases b <;> simp_all [tomlSame]
  · intro l ih b h
    cases b <;> simp only [tomlSame, reduceCtorEq] at h
    rw [ih _ h]
  · intro l ih b h
    cases b <;> simp only [tomlSame, reduceCtorEq] at h
    rw [ih _ h]
  · intro b h; cases b <;> simp_all [tomlSameSeq]
  · intro t r h1 h2 b h
    cases b with
    | nil => simp [tomlSameSeq] at h
    | cons x y =>
      simp only [tomlSameSeq, Bool.and_eq_true] at h
      rw [h1 _ h.1, h2 _ h.2]
  · intro b h; cases b <;> simp_all [tomlSameMap]
  · intro k t r h1 h2 b h
    cases b with
    | nil => simp [tomlSameMap] at h
    | cons x y =>
      obtain ⟨k', x⟩ := x
      simp only [tomlSameMap, Bool.and_eq_true, beq_iff_eq] at h
      rw [h1 _ h.1.2, h2 _ h.2, h.1.1]

theorem parsed_same {S : TomlScalars} {s : Str} {d : List (Str × Toml)}
    (h : (S.ops.parse s).map (fun x => tomlSameMap x d) = some true) : S.ops.parse s = some d := by
  cases hx : S.ops.parse s with
  | none => rw [hx] at h; cases h
  | some x =>
    rw [hx] at h
    exact congrArg some (tomlSame_eq.2.2 x d (Option.some.inj h))

/-- A text of TOML, not as rops formats it. -/
def looseToml : Str :=
  c!"when = 1979-05-27 # a date\nratio = +1.50\n'two words' = '''a\"b'''\ndb.port_plain = 5_432\ndb.pw = \"x\"\n[[users]]\nname = \"root\"\n[[users]]\n"

/-- What rops writes for it. -/
def tidyToml : Str :=
  c!"when = \"1979-05-27\"\nratio = 1.5\n\"two words\" = 'a\"b'\n\n[db]\nport_plain = 5432\npw = \"x\"\n\n[[users]]\nname = \"root\"\n\n[[users]]\n"

/-- Its document. -/
def tidyDoc (when : Toml) : List (Str × Toml) :=
  [(c!"when", when), (c!"ratio", .float c!"1.5"), (c!"two words", .str c!"a\"b"),
   (c!"db", .table [(c!"port_plain", .int 5432), (c!"pw", .str c!"x")]),
   (c!"users", .array [.table [(c!"name", .str c!"root")], .table []])]

/-- A configuration as text. -/
def tomlConfig : Str :=
  c!"[[creation_rules]]\npath_regex = \"toml\"\npartial_encryption.unencrypted_suffix = '_plain'\nintegration_keys.age = [ \"pk1\" ]\n"

/-- Its rule. -/
def tomlRule : CreationRule where
  pathRegex := c!"toml"
  macOnlyEncrypted := none
  partialEncryption := some (.unencryptedSuffix c!"_plain")
  keys := { age := [c!"pk1"], kms := [] }

/-- A process with the syntax of TOML and with floats. -/
def tomlProc (content : Str) : Proc :=
  { Toy.proc Toy.rule content [] with
    env := floatEnv
    file := fun p => if p = c!"a.toml" then .data (utf8 content) else if p = c!"/.rops.toml" then .data (utf8 tomlConfig) else .missing
    T := fun x => match x with
      | .json => serdeFloats.ops
      | .yaml => Toy.texts Toy.rule .yaml
      | .toml => dayScalars.ops }

/-- The input of `rops … a.toml`. -/
def tomlInput : InputArgs := { config := none, format := none, file := some c!"a.toml" }

/-- `rops encrypt -i --age pk2 a.toml`. -/
def tomlEncrypt : EncryptLine := { Toy.encryptLine with input := tomlInput }

theorem tomlProc_config (content : Str) : (tomlProc content).retrieveConfig none = .ok [tomlRule] := by
  have h : (tomlProc []).retrieveConfig none = .ok [tomlRule] := by decide +kernel
  rw [← h]
  refine retrieveConfig_files rfl rfl rfl rfl (fun _ h => nomatch h) (fun _ h => nomatch h) fun dir hd d hm => ?_
  cases hd
  simp only [ancestors, List.mem_cons, List.not_mem_nil, or_false] at hm
  rcases hm with rfl | rfl <;> rfl

theorem tomlProc_input (content : Str) : InputText (tomlProc content) (some c!"a.toml") content :=
  .inl ⟨_, _, rfl, rfl, rfl, utf8?_utf8 content⟩

theorem looseToml_parsed : dayScalars.ops.parse looseToml = some (tidyDoc (.datetime c!"1979-05-27")) :=
  parsed_same (by decide +kernel)

theorem tidyToml_parsed : dayScalars.ops.parse tidyToml = some (tidyDoc (.str c!"1979-05-27")) :=
  parsed_same (by decide +kernel)

theorem tidyToml_rendered : dayScalars.ops.render (tidyDoc (.str c!"1979-05-27")) = tidyToml := by decide +kernel

theorem tomlProc_encrypts {s : Str} {w : Toml} (hp : dayScalars.ops.parse s = some (tidyDoc w))
    (hw : w = .datetime c!"1979-05-27" ∨ w = .str c!"1979-05-27") :
    ∃ s', Ran floatEnv Toy.docOps (tomlProc []).T .toml c!"a.toml" (tomlProc s) (.encrypt tomlEncrypt) 0 s s' := by
  let b : Builder Format.toml := { Toy.smallBuilder with map := tidyDoc w }
  have hc : (match b.encrypt floatEnv 0 with
      | .error _ => false
      | .ok _ => true) = true := by
    rcases hw with rfl | rfl
    · decide +kernel
    · decide +kernel
  split at hc
  · cases hc
  · rename_i r hr
    obtain ⟨f, j⟩ := r
    refine ⟨EncFile.toText dayScalars.ops Toy.env.C f, ?_⟩
    have hrun : (tomlProc s).run (.encrypt tomlEncrypt) 0 =
        ([.write c!"a.toml" (utf8 (EncFile.toText dayScalars.ops Toy.env.C f)) .done], .ok ()) :=
      run_encrypt_ok.2 ⟨by decide, by decide, [tomlRule], .toml, _, tidyDoc w, f, j, tomlProc_config _,
        by decide +kernel, tomlProc_input _, hp, hr, .inl ⟨rfl, _, rfl, rfl, rfl⟩⟩
    exact {
      program := ⟨⟨Toy.env.host, rfl⟩, rfl, rfl⟩
      target := rfl
      format := by decide +kernel
      run := ⟨_, hrun, by simp [filesAfter, effect, Files.put]⟩
      found := rfl
      config := fun config h => by
        rw [show (Command.encrypt tomlEncrypt).configPath = none from rfl, tomlProc_config] at h
        cases h
        intro r hr
        rw [List.mem_singleton] at hr
        subst hr
        exact ⟨⟨fun _ _ => rfl, fun _ h => nomatch h⟩, fun _ h => by cases h; rfl⟩
      keys := ⟨fun _ _ => rfl, fun _ h => nomatch h⟩
      setting := fun p h => nomatch h
      temp := by rintro t ⟨⟩; rfl }

theorem tidyDoc_portable {w : Toml} (hw : w = .datetime c!"1979-05-27" ∨ w = .str c!"1979-05-27") : TomlPortable dayScalars (tidyDoc w) := by
  refine ⟨by simp [tidyDoc], ?_, ?_, ?_⟩
  · unfold NoColon; rcases hw with rfl | rfl <;> decide +kernel
  · rcases hw with rfl | rfl <;> simp [tidyDoc, tomlLevels, tomlLevelsMap, tomlLevelsSeq, dayScalars, rustScalars]
  · rcases hw with rfl | rfl <;>
      simp [tidyDoc, tomlMap, tomlDoc, tomlSeq, ValuesFirstMap, ValuesFirst, ValuesFirstSeq, isSection, isMap]

-- `rops encrypt -i --age pk2 a.toml`, then `rops decrypt -i a.toml`, with a file that rops formats otherwise: then it is tidy
example : ∃ s' es, Ran floatEnv Toy.docOps (tomlProc []).T .toml c!"a.toml" (tomlProc looseToml) (.encrypt tomlEncrypt) 0 looseToml s' ∧
    (tomlProc s').run (.decrypt { input := tomlInput, inPlace := true }) 70 = (es, .ok ()) ∧
    filesAfter (tomlProc s').file es c!"a.toml" = .data (utf8 tidyToml) := by
  obtain ⟨s', hr⟩ := tomlProc_encrypts looseToml_parsed (.inl rfl)
  obtain ⟨es, h1, h2⟩ := C82_restored floatEnv_laws Toy.env_clock Toy.docOps_laws (S := dayScalars) rfl dayScalars_laws hr
    looseToml_parsed (tidyDoc_portable (.inl rfl)) (P' := tomlProc s') ⟨⟨Toy.env.host, rfl⟩, rfl, rfl⟩ rfl rfl
    (l' := { input := tomlInput, inPlace := true }) rfl rfl (by decide +kernel) (tomlProc_config _) (fun _ => rfl) (tomlProc_config _)
    (ks := [c!"k1"]) rfl (k := c!"k1") (.head _) (.inr ⟨tomlRule, by decide +kernel, by decide⟩) 70
  refine ⟨s', es, hr, h1, ?_⟩
  rw [h2]
  show Entry.data (utf8 (dayScalars.ops.render (tidyDoc (.str c!"1979-05-27")))) = _
  rw [tidyToml_rendered]

-- and then it stays as it is
example : ∃ s' es, Ran floatEnv Toy.docOps (tomlProc []).T .toml c!"a.toml" (tomlProc tidyToml) (.encrypt tomlEncrypt) 0 tidyToml s' ∧
    (tomlProc s').run (.decrypt { input := tomlInput, inPlace := true }) 70 = (es, .ok ()) ∧
    filesAfter (tomlProc s').file es c!"a.toml" = .data (utf8 tidyToml) := by
  obtain ⟨s', hr⟩ := tomlProc_encrypts tidyToml_parsed (.inr rfl)
  have hs : TomlSound dayScalars (.table (tidyDoc (.str c!"1979-05-27"))) :=
    sound_of_read dayScalars_laws.kept dayOnly_kept _ (C81_distinct tidyToml_parsed)
  have hr' := hr
  rw [← tidyToml_rendered] at hr'
  obtain ⟨es, h1, h2⟩ := C82_round_trip floatEnv_laws Toy.env_clock Toy.docOps_laws (S := dayScalars) rfl dayScalars_laws hr'
    hs (tidyDoc_portable (.inr rfl)) (by
      intro p x h
      have hl : leaves (tomlMap (tidyDoc (.str c!"1979-05-27"))) = [([c!"when"], .str c!"1979-05-27"), ([c!"ratio"], .float c!"1.5"),
        ([c!"two words"], .str c!"a\"b"), ([c!"db", c!"port_plain"], .int 5432), ([c!"db", c!"pw"], .str c!"x"),
        ([c!"users", c!"name"], .str c!"root")] := by with_unfolding_all rfl
      rw [hl] at h
      simp at h) (P' := tomlProc s') ⟨⟨Toy.env.host, rfl⟩, rfl, rfl⟩ rfl rfl
    (l' := { input := tomlInput, inPlace := true }) rfl rfl (by decide +kernel) (tomlProc_config _) (fun _ => rfl) (tomlProc_config _)
    (ks := [c!"k1"]) rfl (k := c!"k1") (.head _) (.inr ⟨tomlRule, by decide +kernel, by decide⟩) 70
  rw [tidyToml_rendered] at h2
  exact ⟨s', es, hr, h1, h2⟩

/-- **C82, negative.** A file with a date, formatted as rops formats, is another one after `rops encrypt -i`
and `rops decrypt -i`: the date is now a text. -/
theorem C82_date_lost : ∃ (s s' : Str) (d : List (Str × Toml)) (es : List Event),
    dayScalars.ops.render d = s ∧ dayScalars.ops.parse s = some d ∧
    Ran floatEnv Toy.docOps (tomlProc []).T .toml c!"a.toml" (tomlProc s) (.encrypt tomlEncrypt) 0 s s' ∧
    (tomlProc s').run (.decrypt { input := tomlInput, inPlace := true }) 70 = (es, .ok ()) ∧
    filesAfter (tomlProc s').file es c!"a.toml" = .data (utf8 tidyToml) ∧ s ≠ tidyToml ∧
    (leaves (tomlMap d))[0]? = some ([c!"when"], .date c!"1979-05-27") ∧
    ∃ d', dayScalars.ops.parse tidyToml = some d' ∧ (leaves (tomlMap d'))[0]? = some ([c!"when"], .str c!"1979-05-27") := by
  have hp : dayScalars.ops.parse (dayScalars.ops.render (tidyDoc (.datetime c!"1979-05-27"))) =
      some (tidyDoc (.datetime c!"1979-05-27")) := parsed_same (by decide +kernel)
  obtain ⟨s', hr⟩ := tomlProc_encrypts hp (.inl rfl)
  obtain ⟨es, h1, h2⟩ := C82_restored floatEnv_laws Toy.env_clock Toy.docOps_laws (S := dayScalars) rfl dayScalars_laws hr
    hp (tidyDoc_portable (.inl rfl)) (P' := tomlProc s') ⟨⟨Toy.env.host, rfl⟩, rfl, rfl⟩ rfl rfl
    (l' := { input := tomlInput, inPlace := true }) rfl rfl (by decide +kernel) (tomlProc_config _) (fun _ => rfl) (tomlProc_config _)
    (ks := [c!"k1"]) rfl (k := c!"k1") (.head _) (.inr ⟨tomlRule, by decide +kernel, by decide⟩) 70
  refine ⟨_, s', _, es, rfl, hp, hr, h1, ?_, by decide +kernel, rfl, _, tidyToml_parsed, rfl⟩
  rw [h2]
  show Entry.data (utf8 (dayScalars.ops.render (tidyDoc (.str c!"1979-05-27")))) = _
  rw [tidyToml_rendered]

end Rops.Props
