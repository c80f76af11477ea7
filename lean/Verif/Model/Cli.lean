import Verif.Model.Reading
/-!
# The command line program

Models crates/cli/src/. A process is given by what it finds (files, standard input,
environment, terminal, editor) and a command gives the list of its visible effects and its
result. Paths are texts; that two texts may name the same file is not modelled.
-/

namespace Rops

/-- `Format` (crates/cli/src/args/misc_args.rs:53-59). -/
inductive Fmt where
  | yaml
  | json
  | toml
deriving DecidableEq, Repr

/-- The format of the library. -/
def Fmt.doc : Fmt → DocFormat
  | .yaml => .yaml
  | .json => .json
  | .toml => .toml

/-- What a path names. -/
inductive Entry where
  | missing
  | unreadable
  | data (b : Bytes)
deriving DecidableEq, Repr

/-- What comes of `std::fs::write`: done, no permission to open, or an error after some
bytes. -/
inductive WriteResult where
  | done
  | notOpened
  | failed (written : Nat)
deriving DecidableEq, Repr

/-- Standard input: a terminal, or anything else with what is read from it. -/
inductive Stdin where
  | terminal
  | piped (b : Option Bytes)
deriving DecidableEq, Repr

/-- What happens after a text that cannot be parsed (cli/edit.rs:109-117): the message cannot be
written to standard error (`eprintln!` then panics), or `console::Term::read_key` gives this. -/
inductive KeyRead where
  | noMessage
  | key
  | interrupted
  | failed
deriving DecidableEq, Repr

/-- One run of the editor (cli/edit.rs:94-117): it does not start, it fails, or it ends and
leaves a temporary file; then, if this cannot be parsed, a key is read. -/
inductive Attempt where
  | notStarted
  | failed
  | left (e : Entry) (pressed : KeyRead)
deriving DecidableEq, Repr

/-- What a process finds. -/
structure Proc where
  env : Env
  O : DocOps
  T : (x : Fmt) → TextOps x.doc
  file : Str → Entry
  stdin : Stdin
  /-- the variable ROPS_CONFIG -/
  configVar : Option Str
  /-- the current directory, innermost component first -/
  cwd : Option (List Str)
  saves : Str → Bytes → WriteResult
  /-- the name of the temporary file, or none if it cannot be made -/
  temp : Option Str
  /-- none, or the number of characters after which writing to standard output fails (a closed
  pipe) -/
  stdout : Option Nat
  /-- the variable EDITOR -/
  editorVar : Option Bytes
  /-- `shlex::split` -/
  shlex : Str → Option (List Str)
  /-- `which::which`, the path in bytes -/
  which : Str → Option Bytes
  /-- whether `ctrlc::try_set_handler` (cli/edit.rs:91) succeeds; it does not if interrupts are
  ignored or handled already -/
  handlerSet : Bool
  /-- the runs of the editor; when the list ends the process is killed -/
  editor : List Attempt

/-- Visible effects. -/
inductive Event where
  | print (s : Str)
  | create (p : Str)
  | write (p : Str) (b : Bytes) (r : WriteResult)
  | edited (p : Str) (e : Entry)
  | delete (p : Str)
deriving DecidableEq, Repr

/-- Errors of the program (crates/cli/src/error.rs and those of the library). -/
inductive CliError where
  | usage
  | multipleInputs
  | missingInput
  | foundNeither
  | noFileExtension (p : Str)
  | io
  | config
  | parse (s : Str)
  | deserialize
  | builder (e : BuilderError)
  | decrypt (e : FileDecryptError)
  | encrypt (e : FileEncryptError)
  | addKeys (e : AddKeyError)
  | removeKey (e : IntegrationError)
  | setMap (e : SetMapError)
  | editor
  | panic
  | killed
deriving DecidableEq, Repr

/-- The effects of a command and its result. -/
abbrev Run := List Event × Except CliError Unit

/-! ## Paths -/

/-- `Path::file_name` on Unix: the last component that is neither empty nor ".", unless it is
"..". -/
def fileName (p : Str) : Option Str :=
  match ((splitOn '/' p).filter fun c => c != [] && c != c!".").reverse with
  | [] => none
  | c :: _ => if c = c!".." then none else some c

/-- `Path::extension`: what follows the last point of the file name, if something precedes
it. -/
def fileExtension (p : Str) : Option Str :=
  match fileName p with
  | none => none
  | some n => match splitOnce '.' n.reverse with
    | none => none
    | some (after, before) => if before = [] then none else some after.reverse

/-- ASCII lower case. -/
def lowerAscii (c : Char) : Char :=
  if 'A' ≤ c ∧ c ≤ 'Z' then Char.ofNat (c.toNat + 32) else c

/-- `<Format as ValueEnum>::from_str(_, true)`: names and aliases without regard to ASCII case
(misc_args.rs:53-59). -/
def Fmt.ofExtension (s : Str) : Option Fmt :=
  let s := s.map lowerAscii
  if s = c!"yaml" ∨ s = c!"yml" then some .yaml
  else if s = c!"json" then some .json
  else if s = c!"toml" then some .toml
  else none

/-- `Cli::get_format` (crates/cli/src/cli/common.rs:42-55). -/
def getFormat (path : Option Str) (format : Option Fmt) : Except CliError Fmt :=
  match format with
  | some f => .ok f
  | none => match path with
    | none => .error .foundNeither
    | some p => match (fileExtension p).bind Fmt.ofExtension with
      | some f => .ok f
      | none => .error (.noFileExtension p)

/-! ## Input and output -/

/-- `std::fs::read_to_string`. -/
def Proc.readFile (P : Proc) (p : Str) : Except CliError Str :=
  match P.file p with
  | .data b => match utf8? b with
    | some s => .ok s
    | none => .error .io
  | _ => .error .io

/-- `read_from_path` (common.rs:32-39). -/
def Proc.readFromPath (P : Proc) (p : Str) : Except CliError Str :=
  match P.stdin with
  | .piped _ => .error .multipleInputs
  | .terminal => P.readFile p

/-- `Cli::get_input_string` (common.rs:12-40). -/
def Proc.getInput (P : Proc) (path : Option Str) (inPlace : Option Bool) : Except CliError Str :=
  if inPlace.getD false then
    match path with
    | none => .error .panic
    | some p => P.readFromPath p
  else match path with
    | some p => P.readFromPath p
    | none => match P.stdin with
      | .terminal => .error .missingInput
      | .piped none => .error .io
      | .piped (some b) => match utf8? b with
        | some s => .ok s
        | none => .error .io

/-- `std::fs::write` with its error passed on. -/
def Proc.write (P : Proc) (p : Str) (s : Str) : Run :=
  let r := P.saves p (utf8 s)
  ([.write p (utf8 s) r], if r = .done then .ok () else .error .io)

/-- `println!`. -/
def Proc.printLine (P : Proc) (s : Str) : Run :=
  match P.stdout with
  | none => ([.print (s ++ ['\n'])], .ok ())
  | some n => ([.print ((s ++ ['\n']).take n)], .error .panic)

/-- `Cli::write_or_print` (common.rs:57-69), and cli/decrypt.rs:13-20. -/
def Proc.writeOrPrint (P : Proc) (inPlace : Option Bool) (path : Option Str) (s : Str) : Run :=
  if inPlace.getD false then
    match path with
    | none => ([], .error .panic)
    | some p => P.write p s
  else P.printLine s

/-! ## Configuration -/

/-- `read_fs_path_and_deserialize` (crates/cli/src/config/retrieve.rs:37-40). -/
def Proc.readConfig (P : Proc) (p : Str) : Except CliError Config :=
  match P.readFile p with
  | .error e => .error e
  | .ok s => match Config.ofText (P.T .toml) P.O s with
    | some c => .ok c
    | none => .error (if Config.textPanics (P.T .toml) P.O s then .panic else .config)

/-- The path of the configuration in a directory, given by its components, innermost first. -/
def configIn : List Str → Str
  | [] => c!"/.rops.toml"
  | dir => (dir.reverse.flatMap fun c => '/' :: c) ++ c!"/.rops.toml"

/-- `traverse_fs_or_default` (retrieve.rs:22-35). -/
def Proc.traverse (P : Proc) : List Str → Except CliError Config
  | [] => if P.file (configIn []) = .missing then .ok [] else P.readConfig (configIn [])
  | c :: r => if P.file (configIn (c :: r)) = .missing then P.traverse r else P.readConfig (configIn (c :: r))

/-- `Config::retrieve` (config/core.rs:14-16, retrieve.rs:11-20). -/
def Proc.retrieveConfig (P : Proc) (path : Option Str) : Except CliError Config :=
  match path with
  | some p => P.readConfig p
  | none => match P.configVar with
    | some p => P.readConfig p
    | none => match P.cwd with
      | none => .error .io
      | some dir => P.traverse dir

/-! ## Arguments -/

/-- `InputArgs` (args/input_args.rs:7-18). -/
structure InputArgs where
  config : Option Str
  format : Option Fmt
  file : Option Str
deriving DecidableEq, Repr

/-- `PartialEncryptionArgs` (args/misc_args.rs:5-20). -/
structure SettingArgs where
  encryptedSuffix : Option Str
  encryptedRegex : Option Str
  unencryptedSuffix : Option Str
  unencryptedRegex : Option Str
deriving DecidableEq, Repr

/-- `From<PartialEncryptionArgs> for PartialEncryptionConfig` (misc_args.rs:22-35); none is
the panic. -/
def SettingArgs.toSetting (a : SettingArgs) : Option PartialEncryption :=
  (a.encryptedSuffix.map .encryptedSuffix).orElse fun _ => (a.encryptedRegex.map .encryptedRegex).orElse fun _ =>
    (a.unencryptedSuffix.map .unencryptedSuffix).orElse fun _ => a.unencryptedRegex.map .unencryptedRegex

/-- `From<PartialEncryptionConfig> for PartialEncryptionArgs` (misc_args.rs:38-51). -/
def SettingArgs.ofSetting : PartialEncryption → SettingArgs
  | .encryptedSuffix s => ⟨some s, none, none, none⟩
  | .encryptedRegex r => ⟨none, some r, none, none⟩
  | .unencryptedSuffix s => ⟨none, none, some s, none⟩
  | .unencryptedRegex r => ⟨none, none, none, some r⟩

/-- `EncryptArgs` (args/encrypt.rs:7-21). -/
structure EncryptArgs where
  keys : IntegrationKeys
  setting : Option SettingArgs
  macOnlyEncrypted : Option Bool
  input : InputArgs
  inPlace : Option Bool
deriving DecidableEq, Repr

/-- `DecryptArgs` and `RefreshArgs` (args/decrypt.rs:7-14, args/refresh.rs:7-14). -/
structure PlaceArgs where
  input : InputArgs
  inPlace : Option Bool
deriving DecidableEq, Repr

/-- `KeyInputArgs` (args/keys.rs:15-25). -/
structure KeyArgs where
  keys : IntegrationKeys
  format : Option Fmt
  file : Str
deriving DecidableEq, Repr

/-- `EncryptArgs::merge_config` (args/encrypt.rs:29-52). -/
def EncryptArgs.merge (rx : RegexMatch) (a : EncryptArgs) : Config → EncryptArgs
  | [] => a
  | rule :: r =>
    if rx rule.pathRegex (a.input.file.getD []) then
      { a with
        keys := a.keys.merge rule.keys
        macOnlyEncrypted := match a.macOnlyEncrypted with
          | none => rule.macOnlyEncrypted
          | some b => some b
        setting := match a.setting with
          | none => rule.partialEncryption.map SettingArgs.ofSetting
          | some s => some s }
    else a.merge rx r

/-! ## Commands -/

/-- `encrypt_rops_file_impl` (cli/encrypt.rs:23-40). -/
def Proc.encryptText (P : Proc) (x : Fmt) (s : Str) (a : EncryptArgs) (i : Nat) : Except CliError Str :=
  match (P.T x).parse s with
  | none => .error (.parse s)
  | some map =>
    let b := a.keys.addToBuilder (Builder.fromMap map)
    match (match a.setting with
      | none => some b
      | some args => args.toSetting.map b.withPartialEncryption) with
    | none => .error .panic
    | some b =>
      let b := if a.macOnlyEncrypted.getD false then b.setMacOnlyEncrypted else b
      match b.encrypt P.env i with
      | .error e => .error (.builder e)
      | .ok (f, _) => .ok (EncFile.toText (P.T x) P.env.C f)

/-- `Cli::encrypt` (cli/encrypt.rs:6-14). -/
def Proc.encrypt (P : Proc) (a : EncryptArgs) (i : Nat) : Run :=
  match getFormat a.input.file a.input.format with
  | .error e => ([], .error e)
  | .ok x => match P.getInput a.input.file a.inPlace with
    | .error e => ([], .error e)
    | .ok s => match P.encryptText x s a i with
      | .error e => ([], .error e)
      | .ok out => P.writeOrPrint a.inPlace a.input.file out

/-- `str::parse` to a file (file/core.rs:69-78). -/
def Proc.parseFile (P : Proc) (x : Fmt) (s : Str) : Except CliError (EncFile x.doc.F) :=
  match EncFile.ofText (P.T x) P.O P.env.C s with
  | none => .error (if EncFile.textPanics (P.T x) P.O P.env.C s then .panic else .deserialize)
  | some f => .ok f

/-- `decrypt_rops_file_impl` (cli/decrypt.rs:31-37). -/
def Proc.decryptText (P : Proc) (x : Fmt) (s : Str) : Except CliError Str :=
  match P.parseFile x s with
  | .error e => .error e
  | .ok f => match f.decrypt x.doc.F P.env with
    | .error e => .error (.decrypt e)
    | .ok g => .ok ((P.T x).render g.map)

/-- `Cli::decrypt` (cli/decrypt.rs:6-22). -/
def Proc.decrypt (P : Proc) (a : PlaceArgs) : Run :=
  match getFormat a.input.file a.input.format with
  | .error e => ([], .error e)
  | .ok x => match P.getInput a.input.file a.inPlace with
    | .error e => ([], .error e)
    | .ok s => match P.decryptText x s with
      | .error e => ([], .error e)
      | .ok out => P.writeOrPrint a.inPlace a.input.file out

/-- The builder made from a rule (cli/refresh.rs:40-50). -/
def CreationRule.builder {F : Format} (r : CreationRule) (map : F.Map) : Builder F :=
  let b := r.keys.addToBuilder (Builder.fromMap map)
  let b := match r.partialEncryption with
    | some p => b.withPartialEncryption p
    | none => b
  if r.macOnlyEncrypted.getD false then b.setMacOnlyEncrypted else b

/-- The loop over the rules in `refresh_rops_file_impl` (cli/refresh.rs:34-59). -/
def Proc.refreshWith (P : Proc) (x : Fmt) (path s : Str) (f : EncFile x.doc.F) (i : Nat) :
    Config → Except CliError Str
  | [] => .ok s
  | rule :: r =>
    if P.env.rx rule.pathRegex path then
      if rule.implies f.metadata then .ok s
      else match f.decrypt x.doc.F P.env with
        | .error e => .error (.decrypt e)
        | .ok g => match (rule.builder g.map).encrypt P.env i with
          | .error e => .error (.builder e)
          | .ok (f, _) => .ok (EncFile.toText (P.T x) P.env.C f)
    else P.refreshWith x path s f i r

/-- `refresh_rops_file_impl` (cli/refresh.rs:23-60). -/
def Proc.refreshText (P : Proc) (x : Fmt) (s : Str) (a : PlaceArgs) (i : Nat) : Except CliError Str :=
  match P.retrieveConfig a.input.config with
  | .error e => .error e
  | .ok config => match P.parseFile x s with
    | .error e => .error e
    | .ok f => P.refreshWith x (a.input.file.getD []) s f i config

/-- `Cli::refresh` (cli/refresh.rs:6-14). -/
def Proc.refresh (P : Proc) (a : PlaceArgs) (i : Nat) : Run :=
  match getFormat a.input.file a.input.format with
  | .error e => ([], .error e)
  | .ok x => match P.getInput a.input.file a.inPlace with
    | .error e => ([], .error e)
    | .ok s => match P.refreshText x s a i with
      | .error e => ([], .error e)
      | .ok out => P.writeOrPrint a.inPlace a.input.file out

/-- The text that `add_key_impl` writes (cli/keys.rs:23-31). -/
def Proc.addKeysText (P : Proc) (x : Fmt) (s : Str) (k : IntegrationKeys) (i : Nat) : Except CliError Str :=
  match P.parseFile x s with
  | .error e => .error e
  | .ok f => match f.addKeys P.env .age k.age i with
    | (.error e, _, _) => .error (.addKeys e)
    | (.ok (), f, i) => match f.addKeys P.env .kms k.kms i with
      | (.error e, _, _) => .error (.addKeys e)
      | (.ok (), f, _) => .ok (EncFile.toText (P.T x) P.env.C f)

/-- The loop over the keys of one kind in `remove_key_impl` (cli/keys.rs:52-58). -/
def DecFile.removeKeys {F : Format} (env : Env) (k : Kind) : List k.Id → DecFile F → Nat →
    Except IntegrationError (DecFile F × Nat)
  | [], g, i => .ok (g, i)
  | id :: r, g, i => match g.removeKey env k id i with
    | (.error e, _, _) => .error e
    | (.ok _, g, i) => DecFile.removeKeys env k r g i

/-- The text that `remove_key_impl` writes (cli/keys.rs:44-60). -/
def Proc.removeKeysText (P : Proc) (x : Fmt) (s : Str) (k : IntegrationKeys) (i : Nat) : Except CliError Str :=
  match P.parseFile x s with
  | .error e => .error e
  | .ok f => match f.decrypt x.doc.F P.env with
    | .error e => .error (.decrypt e)
    | .ok g => match g.removeKeys P.env .age k.age i with
      | .error e => .error (.removeKey e)
      | .ok (g, i) => match g.removeKeys P.env .kms k.kms i with
        | .error e => .error (.removeKey e)
        | .ok (g, i) => match g.encrypt x.doc.F P.env i with
          | .error e => .error (.encrypt e)
          | .ok (f, _) => .ok (EncFile.toText (P.T x) P.env.C f)

/-- `Cli::add_keys` and `Cli::remove_keys` (cli/keys.rs:16-35,37-64). -/
def Proc.keys (P : Proc) (remove : Bool) (a : KeyArgs) (i : Nat) : Run :=
  match getFormat (some a.file) a.format with
  | .error e => ([], .error e)
  | .ok x => match P.getInput (some a.file) none with
    | .error e => ([], .error e)
    | .ok s => match (if remove then P.removeKeysText x s a.keys i else P.addKeysText x s a.keys i) with
      | .error e => ([], .error e)
      | .ok out => P.write a.file out

/-- The loop of `edit_temp_file` (cli/edit.rs:93-122). The first component of the result are
the effects; none means cancelled. -/
def Proc.editLoop (P : Proc) (x : Fmt) (temp : Str) : List Attempt → List Event × Except CliError (Option x.doc.F.Map)
  | [] => ([], .error .killed)
  | .notStarted :: _ => ([], .error .editor)
  | .failed :: _ => ([], .error .editor)
  | .left e pressed :: r =>
    match e with
    | .missing => ([.edited temp e], .error .io)
    | .unreadable => ([.edited temp e], .error .io)
    | .data b => match utf8? b with
      | none => ([.edited temp e], .error .io)
      | some s => match (P.T x).parse s with
        | some m => ([.edited temp e], .ok (some m))
        | none => match pressed with
          | .noMessage => ([.edited temp e], .error .panic)
          | .interrupted => ([.edited temp e], .ok none)
          | .failed => ([.edited temp e], .error .io)
          | .key => match P.editLoop x temp r with
            | (es, res) => (.edited temp e :: es, res)

/-- `select_editor` (cli/edit.rs:65-81): the program and its arguments. -/
def Proc.selectEditor (P : Proc) : Except CliError (Str × List Str) :=
  match P.editorVar with
  | some b => match utf8? b with
    | none => .error .editor
    | some s => match P.shlex s with
      | none => .error .editor
      | some [] => .error .panic
      | some (command :: args) => .ok (command, args)
  | none => match ((P.which c!"vim").or (P.which c!"nano")).or (P.which c!"vi") with
    | none => .error .editor
    | some b => match utf8? b with
      | none => .error .panic
      | some path => .ok (path, [])

/-- `edit_temp_file` (cli/edit.rs:84-123). What the selected editor does is `P.editor`. -/
def Proc.editTemp (P : Proc) (x : Fmt) (temp : Str) : List Event × Except CliError (Option x.doc.F.Map) :=
  match P.selectEditor with
  | .error e => ([], .error e)
  | .ok _ => if P.handlerSet then P.editLoop x temp P.editor else ([], .error .panic)

/-- What is done with the edited map (cli/edit.rs:48-61). The number is a position of the tape
and of the clock. -/
def Proc.editedText (P : Proc) (x : Fmt) (g : DecFile x.doc.F) (p : SavedParameters) (m : x.doc.F.Map) (i : Nat) :
    Except CliError Str :=
  match g.setMap P.env m i with
  | .error e => .error (.setMap e)
  | .ok g => match g.encryptSaved x.doc.F P.env p i with
    | .error e => .error (.encrypt e)
    | .ok (f, _) => .ok (EncFile.toText (P.T x) P.env.C f)

/-- The effects of a temporary file that is gone when the function returns, unless the process
is killed (`NamedTempFile`, cli/edit.rs:34-42). -/
def withTemp {α : Type} (temp : Str) (r : List Event × Except CliError α) : List Event × Except CliError α :=
  match r with
  | (es, .error .killed) => (.create temp :: es, .error .killed)
  | (es, res) => (.create temp :: (es ++ [.delete temp]), res)

/-- The part of `edit_encrypted_file` with the temporary file (cli/edit.rs:34-42). -/
def Proc.editSession (P : Proc) (x : Fmt) (map : x.doc.F.Map) : List Event × Except CliError (Option x.doc.F.Map) :=
  match P.temp with
  | none => ([], .error .io)
  | some temp => withTemp temp <|
    match P.write temp ((P.T x).render map) with
    | (es, .error e) => (es, .error e)
    | (es, .ok ()) => match P.editTemp x temp with
      | (es', res) => (es ++ es', res)

/-- `edit_encrypted_file` (cli/edit.rs:29-63). -/
def Proc.editFile (P : Proc) (x : Fmt) (path : Option Str) (i : Nat) : Run :=
  match P.getInput path none with
  | .error e => ([], .error e)
  | .ok s => match P.parseFile x s with
    | .error e => ([], .error e)
    | .ok f => match f.decryptAndSave x.doc.F P.env with
      | .error e => ([], .error (.decrypt e))
      | .ok (g, p) => match P.editSession x g.map with
        | (es, .error e) => (es, .error e)
        | (es, .ok none) => (es, .ok ())
        | (es, .ok (some m)) => match P.editedText x g p m i with
          | .error e => (es, .error e)
          | .ok out => match P.stdin, path with
            | .terminal, some file => match P.write file out with
              | (es', res) => (es ++ es', res)
            | .terminal, none => (es, .error .panic)
            | .piped _, _ => match P.printLine out with
              | (es', res) => (es ++ es', res)

/-- `Cli::edit` (cli/edit.rs:9-16). -/
def Proc.edit (P : Proc) (a : InputArgs) (i : Nat) : Run :=
  match getFormat a.file a.format with
  | .error e => ([], .error e)
  | .ok x => P.editFile x a.file i

/-! ## The command line -/

/-- The flags of `rops encrypt` as given; absent flags are false. `setting` holds the options of
partial encryption, of which `clap` accepts at most one (misc_args.rs:6). -/
structure EncryptLine where
  keys : IntegrationKeys
  setting : Option PartialEncryption
  macOnlyEncrypted : Bool
  input : InputArgs
  inPlace : Bool
deriving DecidableEq, Repr

/-- A flag with `ArgAction::SetTrue` has the default value false, so the field, although an
option, is always present. -/
def setTrue (given : Bool) : Option Bool := some given

/-- What `clap` makes of the flags of `encrypt` (args/encrypt.rs:7-21): `mac_only_encrypted`
requires an option of partial encryption, `in_place` requires a file. -/
def EncryptLine.args (l : EncryptLine) : Option EncryptArgs :=
  if (l.macOnlyEncrypted && l.setting.isNone) || (l.inPlace && l.input.file.isNone) then none
  else some { keys := l.keys, setting := l.setting.map SettingArgs.ofSetting
              macOnlyEncrypted := setTrue l.macOnlyEncrypted, input := l.input, inPlace := setTrue l.inPlace }

/-- The flags of `rops decrypt` and `rops refresh`. -/
structure PlaceLine where
  input : InputArgs
  inPlace : Bool
deriving DecidableEq, Repr

/-- What `clap` makes of them (args/decrypt.rs:7-14, args/refresh.rs:7-14). -/
def PlaceLine.args (l : PlaceLine) : Option PlaceArgs :=
  if l.inPlace && l.input.file.isNone then none else some { input := l.input, inPlace := setTrue l.inPlace }

/-- `CliSubcommand` (args/core.rs:11-28) as given. -/
inductive Command where
  | encrypt (l : EncryptLine)
  | decrypt (l : PlaceLine)
  | edit (a : InputArgs)
  | addKeys (a : KeyArgs)
  | removeKeys (a : KeyArgs)
  | refresh (l : PlaceLine)
deriving DecidableEq, Repr

/-- `ConfigArg::config_path` (args/core.rs:30-40, args/keys.rs:27-31). -/
def Command.configPath : Command → Option Str
  | .encrypt l => l.input.config
  | .decrypt l => l.input.config
  | .edit a => a.config
  | .addKeys _ => none
  | .removeKeys _ => none
  | .refresh l => l.input.config

/-- Whether `clap` accepts the arguments. -/
def Command.accepted : Command → Bool
  | .encrypt l => l.args.isSome
  | .decrypt l => l.args.isSome
  | .refresh l => l.args.isSome
  | _ => true

/-- The rest of `run` with the configuration (run.rs:7-15); only `encrypt` merges it. -/
def Proc.dispatch (P : Proc) (config : Config) (c : Command) (i : Nat) : Run :=
  match c with
  | .encrypt l => match l.args with
    | none => ([], .error .usage)
    | some a => P.encrypt (a.merge P.env.rx config) i
  | .decrypt l => match l.args with
    | none => ([], .error .usage)
    | some a => P.decrypt a
  | .edit a => P.edit a i
  | .addKeys a => P.keys false a i
  | .removeKeys a => P.keys true a i
  | .refresh l => match l.args with
    | none => ([], .error .usage)
    | some a => P.refresh a i

/-- `run` (run.rs:5-16). -/
def Proc.run (P : Proc) (c : Command) (i : Nat) : Run :=
  if c.accepted then
    match P.retrieveConfig c.configPath with
    | .error e => ([], .error e)
    | .ok config => P.dispatch config c i
  else ([], .error .usage)

end Rops
