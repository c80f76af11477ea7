import Verif.Lemmas.YamlFiles
import Verif.Lemmas.ToyHistory
import Verif.Props.YamlScalars
import Verif.Props.TomlFiles
/-!
# C88: YAML files, with the scalars of YAML

As C72 and C82 for the third format. Of its syntax only the layout is assumed to be read as it is written.
-/

namespace Rops.Props
open Spec

/-- **C88.** An encrypted YAML file for a document that was read from a text is read from the text
that is written for it. -/
theorem C88_file {O : DocOps} (hO : DocLaws O) {L : YamlLayout} {limit : Nat} (hL : YamlLaws L limit) {env : Env} {s : Str}
    {d : List (Yaml × Yaml)} (hp : L.ops.parse s = some d) (hd : YamlPortable limit d) {m : RMap Value} (hm : Yaml.toMap d = .ok m)
    {f : EncFile Format.yaml} {key : Bytes} {rep : Value → Prop} {m' : RMap EncLeaf} (hh : Holding env rep f key m m')
    (hw : EncWritable O env.C f.metadata) : EncFile.ofText L.ops O env.C (EncFile.toText L.ops env.C f) = some f := by
  have hs := yaml_parse_sound hp
  have := C44_yaml_encryption hO (C87_documents hL.layout) (f := (show EncFile DocFormat.yaml.F from f)) hh hw
    (yaml_writable hL.room hs hd hm hh.sealed.standsFor hh.written)
  rw [if_neg (yaml_keepable hs hd hm).sops] at this
  exact this

/-- **C88.** What a history of a YAML file says of its document, it says of the values in it: the
theorems on histories (C51, C52) hold with nothing assumed of the syntax but of the layout. -/
theorem C88_history {E : Env} (hfl : E.fl = f64Floats) {O : DocOps} {T : (x : Fmt) → TextOps x.doc} {L : YamlLayout} {limit : Nat}
    (hT : T .yaml = L.ops) (hL : YamlLaws L limit) {path s : Str} {d : List (Yaml × Yaml)} (h : YamlHistory E O T L limit path s d) :
    ∃ m, Yaml.toMap d = .ok m ∧ Kept E O T .yaml path s m := by
  suffices h' : ∃ s0 m, L.ops.parse s0 = some d ∧ YamlPortable limit d ∧ Yaml.toMap d = .ok m ∧ Kept E O T .yaml path s m by
    obtain ⟨_, m, _, _, hm, hk⟩ := h'
    exact ⟨m, hm, hk⟩
  induction h with
  | encrypted hr hp hd =>
    rename_i P l i s s' d
    obtain ⟨⟨host, hE⟩, h2, h3⟩ := id hr.program
    obtain ⟨es, hrun, ha⟩ := hr.run
    obtain ⟨hin, ht⟩ : l.inPlace = true ∧ l.input.file = some path := by
      have ht := hr.target
      unfold target at ht
      simp only at ht
      split at ht
      · rename_i hin; exact ⟨hin, ht⟩
      · cases ht
    obtain ⟨config, map', f1, j, hcf, hp', hf1, _⟩ := encrypted_in_place hrun hin ht hr.format hr.found ha
    rw [h3, hT] at hp'
    cases Option.some.inj (hp.symm.trans hp')
    obtain ⟨m, _, _, _, _, hm, _⟩ := Builder.encrypt_ok hf1
    have hs := yaml_parse_sound hp
    exact ⟨_, m, hp, hd, hm, .encrypted hr (by rw [hT]; exact hp) hm (by rw [hfl]; exact yaml_keepable hs hd hm)
      (by rw [hT]; exact yaml_readBack hL hs hd hm _)⟩
  | keysAdded _ hr ih =>
    obtain ⟨s0, m, hp, hd, hm, h⟩ := ih
    exact ⟨s0, m, hp, hd, hm, .keysAdded h hr (by rw [hT]; exact yaml_readBack hL (yaml_parse_sound hp) hd hm _)⟩
  | keysRemoved _ hr ih =>
    obtain ⟨s0, m, hp, hd, hm, h⟩ := ih
    exact ⟨s0, m, hp, hd, hm, .keysRemoved h hr (by rw [hT]; exact yaml_readBack hL (yaml_parse_sound hp) hd hm _)⟩
  | refreshed _ hr ih =>
    obtain ⟨s0, m, hp, hd, hm, h⟩ := ih
    exact ⟨s0, m, hp, hd, hm, .refreshed h hr (by rw [hT]; exact yaml_readBack hL (yaml_parse_sound hp) hd hm _)⟩
  | cancelled _ hr hc ih =>
    obtain ⟨s0, m, hp, hd, hm, h⟩ := ih
    exact ⟨s0, m, hp, hd, hm, .cancelled h hr (by rw [hT]; exact hc)⟩
  | edited _ hr hed hd ih =>
    rename_i P a i s s' d d' _
    obtain ⟨_, _, _, _, _, h⟩ := ih
    obtain ⟨⟨host, hE⟩, h2, h3⟩ := id hr.program
    obtain ⟨m, hm⟩ := edited_internal hr.own (other := (show Fmt.yaml.doc.F.Map from d')) (by rw [h3, hT]; exact hed)
    obtain ⟨t, ht⟩ := edited_parsed hed
    have hs := yaml_parse_sound ht
    exact ⟨t, m, ht, hd, hm, .edited h hr (by rw [hT]; exact hed) hm (by rw [hfl]; exact yaml_keepable hs hd hm)
      (by rw [hT]; exact yaml_readBack hL hs hd hm _)⟩

/-- A document of a history was read from some text. -/
theorem yamlHistory_sound {E : Env} {O : DocOps} {T : (x : Fmt) → TextOps x.doc} {L : YamlLayout} {limit : Nat} {path s : Str}
    {d : List (Yaml × Yaml)} (h : YamlHistory E O T L limit path s d) : YamlSound (.map d) := by
  induction h with
  | encrypted _ hp _ => exact yaml_parse_sound hp
  | keysAdded _ _ ih => exact ih
  | keysRemoved _ _ ih => exact ih
  | refreshed _ _ ih => exact ih
  | cancelled _ _ _ ih => exact ih
  | edited _ _ hed _ _ => exact yaml_parse_sound (edited_parsed hed).choose_spec

/-- **C88.** Whatever commands a YAML file went through since its document was encrypted or edited,
`rops decrypt` by a recipient gives exactly the text that is written for this document without its tags: every
text, number, truth value and null is of the type that it was. -/
theorem C88_decrypted {E : Env} (he : EnvLaws E) (hfl : E.fl = f64Floats) (hc : ∀ i, Calendar (E.clock i)) {O : DocOps} (hO : DocLaws O)
    {T : (x : Fmt) → TextOps x.doc} {L : YamlLayout} {limit : Nat} (hT : T .yaml = L.ops) (hL : YamlLaws L limit) {path s : Str}
    {d : List (Yaml × Yaml)} (h : YamlHistory E O T L limit path s d)
    {P : Proc} (hP : SameProgram E O T P) (hfile : P.file path = .data (utf8 s)) (hin : P.stdin = .terminal)
    {l : PlaceLine} (hl : l.input.file = some path) (hx : getFormat (some path) l.input.format = .ok .yaml)
    {config : Config} (hcf : P.retrieveConfig l.input.config = .ok config)
    (hsave : ∀ b, P.saves path b = .done) (hout : l.inPlace = false → P.stdout = none)
    {f : EncFile Format.yaml} (hf : EncFile.ofText L.ops O E.C s = some f)
    {ks : List E.A.Identity} (hks : retrievePrivateKeys (Age.parsePrivateKey E.A) P.env.host c!"age" = .ok ks)
    {k : E.A.Identity} (hk : k ∈ ks) (hid : E.A.toPublic k ∈ keyIds f.metadata.integration .age) (i : Nat) :
    ∃ es, P.run (.decrypt l) i = (es, .ok ()) ∧ Delivered P l.inPlace (some path) (L.ops.render (untagMap d)) es := by
  have hs := yamlHistory_sound h
  obtain ⟨m, hm, h⟩ := C88_history hfl hT hL h
  obtain ⟨map, es, h1, _, h3, h4⟩ := C51_document_kept (x := .yaml) he hc hO h hP hfile hin hl hx hcf hsave hout
    (by rw [hT]; exact hf) hks hk hid i
  have h3 : Yaml.ofMap Yaml.ofValue m = map := Option.some.inj h3
  unfold YamlSound at hs
  rw [hT, ← h3, (Yaml.to_facts.2.2 d m hm hs.2).1] at h4
  exact ⟨es, h1, h4⟩

/-- **C88.** A YAML file is what is written for its document, without tags, after `rops encrypt -i` and
`rops decrypt -i`; whoever holds the key of a recipient that was given on the command line or by the rule for
the path may decrypt. -/
theorem C88_restored {E : Env} (he : EnvLaws E) (hfl : E.fl = f64Floats) (hc : ∀ i, Calendar (E.clock i)) {O : DocOps} (hO : DocLaws O)
    {T : (x : Fmt) → TextOps x.doc} {L : YamlLayout} {limit : Nat} (hT : T .yaml = L.ops) (hL : YamlLaws L limit) {path s s' : Str}
    {P : Proc} {l : EncryptLine} {i : Nat} {d : List (Yaml × Yaml)}
    (hr : Ran E O T .yaml path P (.encrypt l) i s s') (hp : L.ops.parse s = some d) (hd : YamlPortable limit d)
    {P' : Proc} (hP : SameProgram E O T P') (hfile : P'.file path = .data (utf8 s')) (hin : P'.stdin = .terminal)
    {l' : PlaceLine} (hl : l'.input.file = some path) (hpl : l'.inPlace = true)
    (hx : getFormat (some path) l'.input.format = .ok .yaml)
    {config' : Config} (hcf : P'.retrieveConfig l'.input.config = .ok config') (hsave : ∀ b, P'.saves path b = .done)
    {config : Config} (hcf0 : P.retrieveConfig l.input.config = .ok config)
    {ks : List E.A.Identity} (hks : retrievePrivateKeys (Age.parsePrivateKey E.A) P'.env.host c!"age" = .ok ks)
    {k : E.A.Identity} (hk : k ∈ ks)
    (hid : E.A.toPublic k ∈ l.keys.age ∨ ∃ r, ruleFor E.rx config (some path) = some r ∧ E.A.toPublic k ∈ r.keys.age) (i' : Nat) :
    ∃ es, P'.run (.decrypt l') i' = (es, .ok ()) ∧
      filesAfter P'.file es path = .data (utf8 (L.ops.render (untagMap d))) := by
  have hh : YamlHistory E O T L limit path s' d := .encrypted hr hp hd
  have hs := yaml_parse_sound hp
  obtain ⟨m, hm, _⟩ := C88_history hfl hT hL hh
  obtain ⟨config1, f, hc1, hf, ha, _⟩ := C51_recipients (x := .yaml) he hc hO hr (by rw [hT]; exact hp) hm
    (by rw [hfl]; exact yaml_keepable hs hd hm) (by rw [hT]; exact yaml_readBack hL hs hd hm _)
  rw [hcf0] at hc1
  cases hc1
  obtain ⟨es, h1, h2⟩ := C88_decrypted he hfl hc hO hT hL hh hP hfile hin hl hx hcf hsave (fun h => by rw [hpl] at h; cases h)
    (by rw [← hT]; exact hf) hks hk ((ha _).2 hid) i'
  refine ⟨es, h1, ?_⟩
  rcases h2 with ⟨_, p, hp, _, rfl⟩ | ⟨hn, _⟩
  · cases hp
    simp [filesAfter, effect, Files.put]
  · rw [hpl] at hn; cases hn

theorem untag_untagged : (∀ t : Yaml, Untagged t → untag t = t) ∧ (∀ l : List Yaml, UntaggedSeq l → untagSeq l = l) ∧
    (∀ m : List (Yaml × Yaml), UntaggedMap m → untagMap m = m) := by
  apply Yaml.induct
  · intro _; rfl
  · intro _ _; rfl
  · intro _ _; rfl
  · intro _ _; rfl
  · intro l ih h; rw [Untagged] at h; rw [untag, ih h]
  · intro l ih h; rw [Untagged] at h; rw [untag, ih h]
  · intro s v _ h; cases h
  · intro _; rfl
  · intro t r h1 h2 h; rw [UntaggedSeq] at h; rw [untagSeq, h1 h.1, h2 h.2]
  · intro _; rfl
  · intro k t r _ h1 h2 h; rw [UntaggedMap] at h; rw [untagMap, h1 h.2.1, h2 h.2.2]

/-- **C88.** A YAML file that is formatted as rops formats and has no tags is the same, byte for byte, after
`rops encrypt -i` and `rops decrypt -i`. -/
theorem C88_round_trip {E : Env} (he : EnvLaws E) (hfl : E.fl = f64Floats) (hc : ∀ i, Calendar (E.clock i)) {O : DocOps} (hO : DocLaws O)
    {T : (x : Fmt) → TextOps x.doc} {L : YamlLayout} {limit : Nat} (hT : T .yaml = L.ops) (hL : YamlLaws L limit) {path s' : Str}
    {P : Proc} {l : EncryptLine} {i : Nat} {d : List (Yaml × Yaml)}
    (hr : Ran E O T .yaml path P (.encrypt l) i (L.ops.render d) s') (hs : YamlSound (.map d)) (hd : YamlPortable limit d)
    (hu : UntaggedMap d)
    {P' : Proc} (hP : SameProgram E O T P') (hfile : P'.file path = .data (utf8 s')) (hin : P'.stdin = .terminal)
    {l' : PlaceLine} (hl : l'.input.file = some path) (hpl : l'.inPlace = true)
    (hx : getFormat (some path) l'.input.format = .ok .yaml)
    {config' : Config} (hcf : P'.retrieveConfig l'.input.config = .ok config') (hsave : ∀ b, P'.saves path b = .done)
    {config : Config} (hcf0 : P.retrieveConfig l.input.config = .ok config)
    {ks : List E.A.Identity} (hks : retrievePrivateKeys (Age.parsePrivateKey E.A) P'.env.host c!"age" = .ok ks)
    {k : E.A.Identity} (hk : k ∈ ks)
    (hid : E.A.toPublic k ∈ l.keys.age ∨ ∃ r, ruleFor E.rx config (some path) = some r ∧ E.A.toPublic k ∈ r.keys.age) (i' : Nat) :
    ∃ es, P'.run (.decrypt l') i' = (es, .ok ()) ∧ filesAfter P'.file es path = .data (utf8 (L.ops.render d)) := by
  obtain ⟨t, h1, _, _, h4⟩ := id hd
  have hp : L.ops.parse (L.ops.render d) = some d := yaml_parse_render hL.layout ⟨d, t, rfl, hu, h1, h4⟩ hs
  have := C88_restored he hfl hc hO hT hL hr hp hd hP hfile hin hl hpl hx hcf hsave hcf0 hks hk hid i'
  rwa [untag_untagged.2.2 d hu] at this

/-! ## A file

The layout of the example is no YAML, but simple. -/

/-- A text, with a point before each character. -/
def dotted : Str → Str
  | [] => [';']
  | c :: r => '.' :: c :: dotted r

/-- Reads it. -/
def undotted : Str → Option (Str × Str)
  | ';' :: r => some ([], r)
  | '.' :: c :: r => (undotted r).map fun x => (c :: x.1, x.2)
  | _ => none

theorem undotted_dotted (s r : Str) : undotted (dotted s ++ r) = some (s, r) := by
  induction s with
  | nil => rfl
  | cons c t ih =>
    show Option.map _ (undotted (dotted t ++ r)) = _
    rw [ih]
    rfl

mutual
/-- Writes a tree. -/
def dotNode : YamlNode → Str
  | .plain s => 'p' :: dotted s
  | .free s => 'p' :: dotted s
  | .quoted s => 'q' :: dotted s
  | .seq l => '[' :: dotNodes l
  | .map m => '{' :: dotEntries m
  | .tagged t n => '!' :: (dotted t ++ dotNode n)
/-- See `dotNode`. -/
def dotNodes : List YamlNode → Str
  | [] => [']']
  | n :: r => ',' :: (dotNode n ++ dotNodes r)
/-- See `dotNode`. -/
def dotEntries : List (YamlNode × YamlNode) → Str
  | [] => ['}']
  | (k, n) :: r => ',' :: (dotNode k ++ (dotNode n ++ dotEntries r))
end

mutual
/-- Reads a tree. -/
def undotNode : Nat → Str → Option (YamlNode × Str)
  | _ + 1, 'p' :: r => (undotted r).map fun x => (.plain x.1, x.2)
  | _ + 1, 'q' :: r => (undotted r).map fun x => (.quoted x.1, x.2)
  | n + 1, '[' :: r => (undotNodes n r).map fun x => (.seq x.1, x.2)
  | n + 1, '{' :: r => (undotEntries n r).map fun x => (.map x.1, x.2)
  | n + 1, '!' :: r => (undotted r).bind fun x => (undotNode n x.2).map fun y => (.tagged x.1 y.1, y.2)
  | _, _ => none
/-- See `undotNode`. -/
def undotNodes : Nat → Str → Option (List YamlNode × Str)
  | _ + 1, ']' :: r => some ([], r)
  | n + 1, ',' :: r => (undotNode n r).bind fun x => (undotNodes n x.2).map fun y => (x.1 :: y.1, y.2)
  | _, _ => none
/-- See `undotNode`. -/
def undotEntries : Nat → Str → Option (List (YamlNode × YamlNode) × Str)
  | _ + 1, '}' :: r => some ([], r)
  | n + 1, ',' :: r => (undotNode n r).bind fun k => (undotNode n k.2).bind fun x => (undotEntries n x.2).map fun y => ((k.1, x.1) :: y.1, y.2)
  | _, _ => none
end

/-- The layout of the example. -/
def dotLayout : YamlLayout where
  write := dotEntries
  read s := (undotEntries s.length s).bind fun x => if x.2 = [] then some x.1 else none

mutual
theorem undot_node : ∀ (n : YamlNode) (f : Nat) (r : Str), (dotNode n).length ≤ f →
    ∃ n', undotNode f (dotNode n ++ r) = some (n', r) ∧ YamlChosen n n'
  | .plain s, f + 1, r, _ => ⟨.plain s, by rw [dotNode, List.cons_append, undotNode, undotted_dotted]; rfl, .plain⟩
  | .free s, f + 1, r, _ => ⟨.plain s, by rw [dotNode, List.cons_append, undotNode, undotted_dotted]; rfl, .free⟩
  | .quoted s, f + 1, r, _ => ⟨.quoted s, by rw [dotNode, List.cons_append, undotNode, undotted_dotted]; rfl, .quoted⟩
  | .seq l, f + 1, r, h => by
    rw [dotNode, List.length_cons] at h
    obtain ⟨l', h1, h2⟩ := undot_nodes l f r (by omega)
    exact ⟨.seq l', by rw [dotNode, List.cons_append, undotNode, h1]; rfl, .seq h2⟩
  | .map l, f + 1, r, h => by
    rw [dotNode, List.length_cons] at h
    obtain ⟨l', h1, h2⟩ := undot_entries l f r (by omega)
    exact ⟨.map l', by rw [dotNode, List.cons_append, undotNode, h1]; rfl, .map h2⟩
  | .tagged t n, f + 1, r, h => by
    rw [dotNode, List.length_cons, List.length_append] at h
    obtain ⟨n', h1, h2⟩ := undot_node n f r (by omega)
    exact ⟨.tagged t n', by rw [dotNode, List.cons_append, undotNode, List.append_assoc, undotted_dotted, Option.bind_some, h1]; rfl, .tagged h2⟩
  | .plain s, 0, r, h => by simp [dotNode] at h
  | .free s, 0, r, h => by simp [dotNode] at h
  | .quoted s, 0, r, h => by simp [dotNode] at h
  | .seq l, 0, r, h => by simp [dotNode] at h
  | .map l, 0, r, h => by simp [dotNode] at h
  | .tagged t n, 0, r, h => by simp [dotNode] at h
theorem undot_nodes : ∀ (l : List YamlNode) (f : Nat) (r : Str), (dotNodes l).length ≤ f →
    ∃ l', undotNodes f (dotNodes l ++ r) = some (l', r) ∧ YamlChosenSeq l l'
  | [], f + 1, r, _ => ⟨[], by rw [dotNodes, List.cons_append, undotNodes]; rfl, .nil⟩
  | n :: l, f + 1, r, h => by
    rw [dotNodes, List.length_cons, List.length_append] at h
    obtain ⟨n', h1, h2⟩ := undot_node n f (dotNodes l ++ r) (by omega)
    obtain ⟨l', h3, h4⟩ := undot_nodes l f r (by omega)
    exact ⟨n' :: l', by rw [dotNodes, List.cons_append, undotNodes, List.append_assoc, h1, Option.bind_some, h3]; rfl, .cons h2 h4⟩
  | [], 0, r, h => by simp [dotNodes] at h
  | n :: l, 0, r, h => by simp [dotNodes] at h
theorem undot_entries : ∀ (l : List (YamlNode × YamlNode)) (f : Nat) (r : Str), (dotEntries l).length ≤ f →
    ∃ l', undotEntries f (dotEntries l ++ r) = some (l', r) ∧ YamlChosenMap l l'
  | [], f + 1, r, _ => ⟨[], by rw [dotEntries, List.cons_append, undotEntries]; rfl, .nil⟩
  | (k, n) :: l, f + 1, r, h => by
    rw [dotEntries, List.length_cons, List.length_append, List.length_append] at h
    obtain ⟨k', h5, h6⟩ := undot_node k f (dotNode n ++ (dotEntries l ++ r)) (by omega)
    obtain ⟨n', h1, h2⟩ := undot_node n f (dotEntries l ++ r) (by omega)
    obtain ⟨l', h3, h4⟩ := undot_entries l f r (by omega)
    exact ⟨(k', n') :: l', by
      rw [dotEntries, List.cons_append, undotEntries, List.append_assoc, List.append_assoc, h5, Option.bind_some, h1, Option.bind_some, h3]; rfl,
      .cons h6 h2 h4⟩
  | [], 0, r, h => by simp [dotEntries] at h
  | (k, n) :: l, 0, r, h => by simp [dotEntries] at h
end

theorem dotLayout_laws : YamlLaws dotLayout 127 where
  layout := ⟨fun l _ => by
    obtain ⟨l', h1, h2⟩ := undot_entries l (dotEntries l).length [] (Nat.le_refl _)
    rw [List.append_nil] at h1
    refine ⟨l', ?_, h2⟩
    show Option.bind (undotEntries (dotEntries l).length (dotEntries l)) _ = _
    rw [h1]
    rfl⟩
  room := by decide

/-- A document with texts that look like numbers and truth values. -/
def boxDoc : List (Yaml × Yaml) :=
  [(.str c!"pin", .str c!"0042"), (.str c!"on", .str c!"true"), (.str c!"ratio", .num (.float c!"1.5")),
    (.str c!"db", .map [(.str c!"port_plain", .num (.posInt 5432)), (.str c!"pw", .str c!"1e3")]), (.str c!"l", .seq [.bool true, .null, .str c!""])]

/-- A configuration as text. -/
def yamlConfig : Str :=
  c!"[[creation_rules]]\npath_regex = \"yaml\"\npartial_encryption.unencrypted_suffix = '_plain'\nintegration_keys.age = [ \"pk1\" ]\n"

/-- Its rule. -/
def yamlRule : CreationRule := { tomlRule with pathRegex := c!"yaml" }

/-- A process with the scalars of YAML and with floats. -/
def yamlProc (content : Str) : Proc :=
  { Toy.proc Toy.rule content [] with
    env := floatEnv
    file := fun p => if p = c!"a.yaml" then .data (utf8 content) else if p = c!"/.rops.toml" then .data (utf8 yamlConfig) else .missing
    T := fun x => match x with
      | .json => serdeFloats.ops
      | .yaml => dotLayout.ops
      | .toml => dayScalars.ops }

/-- The input of `rops … a.yaml`. -/
def yamlInput : InputArgs := { config := none, format := none, file := some c!"a.yaml" }

/-- `rops encrypt -i --age pk2 a.yaml`. -/
def yamlEncrypt : EncryptLine := { Toy.encryptLine with input := yamlInput }

theorem yamlProc_config (content : Str) : (yamlProc content).retrieveConfig none = .ok [yamlRule] := by
  have h : (yamlProc []).retrieveConfig none = .ok [yamlRule] := by decide +kernel
  rw [← h]
  refine retrieveConfig_files rfl rfl rfl rfl (fun _ h => nomatch h) (fun _ h => nomatch h) fun dir hd d hm => ?_
  cases hd
  simp only [ancestors, List.mem_cons, List.not_mem_nil, or_false] at hm
  rcases hm with rfl | rfl <;> rfl

theorem boxDoc_sound : YamlSound (.map boxDoc) := by
  have h15 : ∃ x, InRange x ∧ (c!"1.5" : Str) = x.show := by
    have h : F64.parse c!"1.5" ≠ none := by decide +kernel
    cases hx : F64.parse c!"1.5" with
    | none => exact absurd hx h
    | some x =>
      refine ⟨x, inRange_parse hx, ?_⟩
      have : (F64.parse c!"1.5").map F64.show = some c!"1.5" := by decide +kernel
      rw [hx] at this
      exact (Option.some.inj this).symm
  simp only [boxDoc, YamlSound, YamlSoundMap, YamlSoundSeq, yamlTextKeys]
  exact ⟨by decide, trivial, trivial, trivial, trivial, trivial, h15, trivial, ⟨by decide, trivial, trivial, trivial, trivial, trivial⟩, trivial,
    ⟨trivial, trivial, trivial, trivial⟩, trivial⟩

theorem boxDoc_untagged : UntaggedMap boxDoc := by
  simp [boxDoc, UntaggedMap, Untagged, UntaggedSeq]

theorem boxDoc_portable : YamlPortable 127 boxDoc := by
  refine ⟨_, rfl, by decide, ?_, by decide⟩
  unfold NoColon
  decide +kernel

theorem boxDoc_encrypts : ∃ s', Ran floatEnv Toy.docOps (yamlProc []).T .yaml c!"a.yaml" (yamlProc (dotLayout.ops.render boxDoc))
    (.encrypt yamlEncrypt) 0 (dotLayout.ops.render boxDoc) s' := by
  have hp : dotLayout.ops.parse (dotLayout.ops.render boxDoc) = some boxDoc := by
    obtain ⟨t, h1, _, _, h4⟩ := boxDoc_portable
    exact yaml_parse_render dotLayout_laws.layout ⟨boxDoc, t, rfl, boxDoc_untagged, h1, h4⟩ boxDoc_sound
  let b : Builder Format.yaml := { Toy.smallBuilder with map := boxDoc }
  have hc : (match b.encrypt floatEnv 0 with
      | .error _ => false
      | .ok _ => true) = true := by
    decide +kernel
  split at hc
  · cases hc
  · rename_i r hr
    obtain ⟨f, j⟩ := r
    refine ⟨EncFile.toText dotLayout.ops Toy.env.C f, ?_⟩
    have hrun : (yamlProc (dotLayout.ops.render boxDoc)).run (.encrypt yamlEncrypt) 0 =
        ([.write c!"a.yaml" (utf8 (EncFile.toText dotLayout.ops Toy.env.C f)) .done], .ok ()) :=
      run_encrypt_ok.2 ⟨by decide, by decide, [yamlRule], .yaml, _, boxDoc, f, j, yamlProc_config _,
        by decide +kernel, .inl ⟨_, _, rfl, rfl, rfl, utf8?_utf8 _⟩, hp, hr, .inl ⟨rfl, _, rfl, rfl, rfl⟩⟩
    exact {
      program := ⟨⟨Toy.env.host, rfl⟩, rfl, rfl⟩
      target := rfl
      format := by decide +kernel
      run := ⟨_, hrun, by simp [filesAfter, effect, Files.put]⟩
      found := rfl
      config := fun config h => by
        rw [show (Command.encrypt yamlEncrypt).configPath = none from rfl, yamlProc_config] at h
        cases h
        intro r hr
        rw [List.mem_singleton] at hr
        subst hr
        exact ⟨⟨fun _ _ => rfl, fun _ h => nomatch h⟩, fun _ h => by cases h; rfl⟩
      keys := ⟨fun _ _ => rfl, fun _ h => nomatch h⟩
      setting := fun p h => nomatch h
      temp := by rintro t ⟨⟩; rfl }

-- `rops encrypt -i --age pk2 a.yaml`, then `rops decrypt -i a.yaml`
example : ∃ s' es, Ran floatEnv Toy.docOps (yamlProc []).T .yaml c!"a.yaml" (yamlProc (dotLayout.ops.render boxDoc)) (.encrypt yamlEncrypt) 0
      (dotLayout.ops.render boxDoc) s' ∧
    (yamlProc s').run (.decrypt { input := yamlInput, inPlace := true }) 70 = (es, .ok ()) ∧
    filesAfter (yamlProc s').file es c!"a.yaml" = .data (utf8 (dotLayout.ops.render boxDoc)) := by
  obtain ⟨s', hr⟩ := boxDoc_encrypts
  obtain ⟨es, h1, h2⟩ := C88_round_trip floatEnv_laws rfl Toy.env_clock Toy.docOps_laws (L := dotLayout) rfl dotLayout_laws hr
    boxDoc_sound boxDoc_portable boxDoc_untagged (P' := yamlProc s') ⟨⟨Toy.env.host, rfl⟩, rfl, rfl⟩ rfl rfl
    (l' := { input := yamlInput, inPlace := true }) rfl rfl (by decide +kernel) (yamlProc_config _) (fun _ => rfl) (yamlProc_config _)
    (ks := [c!"k1"]) rfl (k := c!"k1") (.head _) (.inr ⟨yamlRule, by decide +kernel, by decide⟩) 70
  exact ⟨s', es, hr, h1, h2⟩

end Rops.Props
