import Verif.Model.Cli
/-!
# The arguments of the process

Models what `CliArgs::parse()` (crates/cli/src/run.rs:6) makes of the words of a command line,
for the options declared in crates/cli/src/args/ and crates/cli/src/integration_keys.rs:18-30.
The declarations are the code of the repository; how `clap` 4.5 reads words by them is
transcribed from its documented behaviour and is trusted. Simplifications: words are valid
UTF-8, and the texts of errors and of the help are not modelled.
-/

namespace Rops

/-- The options and flags of all subcommands, with the flag for help that `clap` adds. -/
inductive Arg where
  | age
  | awsKms
  | encryptedSuffix
  | encryptedRegex
  | unencryptedSuffix
  | unencryptedRegex
  | macOnlyEncrypted
  | config
  | format
  | inPlace
  | help
deriving DecidableEq, Repr

/-- The long names: the name of the field in kebab case unless given (integration_keys.rs:19,25,
args/misc_args.rs:8-19, args/encrypt.rs:14-20, args/input_args.rs:10-14). -/
def Arg.long : Arg → Str
  | .age => c!"age"
  | .awsKms => c!"aws-kms"
  | .encryptedSuffix => c!"encrypted-suffix"
  | .encryptedRegex => c!"encrypted-regex"
  | .unencryptedSuffix => c!"unencrypted-suffix"
  | .unencryptedRegex => c!"unencrypted-regex"
  | .macOnlyEncrypted => c!"mac-only-encrypted"
  | .config => c!"config"
  | .format => c!"format"
  | .inPlace => c!"in-place"
  | .help => c!"help"

/-- The short names: the first letter of the field where `short` is declared
(args/encrypt.rs:18, args/input_args.rs:10,13, args/keys.rs:20). -/
def Arg.short : Arg → Option Char
  | .config => some 'c'
  | .format => some 'f'
  | .inPlace => some 'i'
  | .help => some 'h'
  | _ => none

/-- Whether the argument takes a value: all do but those with `ArgAction::SetTrue`. -/
def Arg.takesValue : Arg → Bool
  | .macOnlyEncrypted | .inPlace | .help => false
  | _ => true

/-- Why there are no arguments: the help is shown, the arguments are wrong, or the parser of a
value panicked. -/
inductive Stop where
  | help
  | usage
  | panic
deriving DecidableEq, Repr

/-- The values found so far (`ArgMatches`). -/
structure Matches where
  age : List Str
  kms : List AwsKeyId
  settings : SettingArgs
  macOnlyEncrypted : Bool
  config : Option Str
  format : Option Fmt
  inPlace : Bool
  file : Option Str
deriving DecidableEq, Repr

/-- Before the first word. -/
def Matches.empty : Matches :=
  { age := [], kms := [], settings := ⟨none, none, none, none⟩, macOnlyEncrypted := false, config := none, format := none
    inPlace := false, file := none }

/-- `ValueEnum for Format` (args/misc_args.rs:53-59). -/
def Fmt.ofName (s : Str) : Option Fmt :=
  if s = c!"yaml" ∨ s = c!"yml" then some .yaml
  else if s = c!"json" then some .json
  else if s = c!"toml" then some .toml
  else none

/-- `ArgAction::Set`: an option that is no list may be given once. -/
def setOnce {α : Type} (old : Option α) (v : Option α) : Except Stop (Option α) :=
  match old, v with
  | none, some a => .ok (some a)
  | _, _ => .error .usage

/-- A value of type `PathBuf`: must not be empty. -/
def pathValue (v : Str) : Option Str := if v = [] then none else some v

/-- A value of type `Regex`. -/
def regexValue (O : DocOps) (v : Str) : Option Str := if O.regexOk v then some v else none

/-- An option with its value (`Parser::react` of `clap` with the types of the fields). -/
def Matches.option (O : DocOps) (m : Matches) (a : Arg) (v : Str) : Except Stop Matches :=
  match a with
  | .age => match O.A.parseRecipient v with
    | some k => .ok { m with age := m.age ++ [k] }
    | none => .error .usage
  | .awsKms => match AwsKeyId.parse O.arn v with
    | .ok k => .ok { m with kms := m.kms ++ [k] }
    | .error .panic => .error .panic
    | .error _ => .error .usage
  | .encryptedSuffix => match setOnce m.settings.encryptedSuffix (some v) with
    | .ok x => .ok { m with settings := { m.settings with encryptedSuffix := x } }
    | .error e => .error e
  | .encryptedRegex => match setOnce m.settings.encryptedRegex (regexValue O v) with
    | .ok x => .ok { m with settings := { m.settings with encryptedRegex := x } }
    | .error e => .error e
  | .unencryptedSuffix => match setOnce m.settings.unencryptedSuffix (some v) with
    | .ok x => .ok { m with settings := { m.settings with unencryptedSuffix := x } }
    | .error e => .error e
  | .unencryptedRegex => match setOnce m.settings.unencryptedRegex (regexValue O v) with
    | .ok x => .ok { m with settings := { m.settings with unencryptedRegex := x } }
    | .error e => .error e
  | .config => match setOnce m.config (pathValue v) with
    | .ok x => .ok { m with config := x }
    | .error e => .error e
  | .format => match setOnce m.format (Fmt.ofName v) with
    | .ok x => .ok { m with format := x }
    | .error e => .error e
  | .macOnlyEncrypted | .inPlace | .help => .error .usage

/-- A flag: `ArgAction::SetTrue` may be given once; the flag for help ends the parsing. -/
def Matches.flag (m : Matches) (a : Arg) : Except Stop Matches :=
  match a with
  | .macOnlyEncrypted => if m.macOnlyEncrypted then .error .usage else .ok { m with macOnlyEncrypted := true }
  | .inPlace => if m.inPlace then .error .usage else .ok { m with inPlace := true }
  | .help => .error .help
  | _ => .error .usage

/-- A positional argument: only the file is declared (args/input_args.rs:16-17, args/keys.rs:23-24). -/
def Matches.positional (m : Matches) (v : Str) : Except Stop Matches :=
  match setOnce m.file (pathValue v) with
  | .ok x => .ok { m with file := x }
  | .error e => .error e

/-- The words after `--` are positional. -/
def Matches.positionals (m : Matches) : List Str → Except Stop Matches
  | [] => .ok m
  | v :: r => match m.positional v with
    | .ok m => m.positionals r
    | .error e => .error e

/-- A word of short names: flags, then perhaps an option, whose value is the rest of the word,
without a leading `=`, or if there is none the next word. -/
def Matches.cluster (O : DocOps) (args : List Arg) (m : Matches) : Str → Except Stop (Matches × Option Arg)
  | [] => .ok (m, none)
  | c :: r => match args.find? (fun a => a.short == some c) with
    | none => .error .usage
    | some a => if a.takesValue then
        match r with
        | [] => .ok (m, some a)
        | '=' :: v => match m.option O a v with
          | .ok m => .ok (m, none)
          | .error e => .error e
        | v => match m.option O a v with
          | .ok m => .ok (m, none)
          | .error e => .error e
      else match m.flag a with
        | .ok m => m.cluster O args r
        | .error e => .error e

/-- A word with a long name, without the leading `--`. -/
def Matches.longWord (O : DocOps) (args : List Arg) (m : Matches) (w : Str) : Except Stop (Matches × Option Arg) :=
  let (name, v) : Str × Option Str := match splitOnce '=' w with
    | some (n, v) => (n, some v)
    | none => (w, none)
  match args.find? (fun a => a.long == name) with
  | none => .error .usage
  | some a => if a.takesValue then
      match v with
      | none => .ok (m, some a)
      | some v => match m.option O a v with
        | .ok m => .ok (m, none)
        | .error e => .error e
    else match v with
      | some _ => .error .usage
      | none => match m.flag a with
        | .ok m => .ok (m, none)
        | .error e => .error e

/-- Whether a word is read as names of options: `-` alone is not. -/
def isOptionWord : Str → Bool
  | '-' :: _ :: _ => true
  | _ => false

/-- A word that is not the value of an option before it and is not `--`. -/
def Matches.word (O : DocOps) (args : List Arg) (m : Matches) : Str → Except Stop (Matches × Option Arg)
  | '-' :: '-' :: w => m.longWord O args w
  | '-' :: c :: w => m.cluster O args (c :: w)
  | w => match m.positional w with
    | .ok m => .ok (m, none)
    | .error e => .error e

/-- The loop over the words of a subcommand (`Parser::get_matches_with` of `clap`); `pending` is
the option that waits for its value. -/
def Matches.words (O : DocOps) (args : List Arg) (m : Matches) : Option Arg → List Str → Except Stop Matches
  | none, [] => .ok m
  | some _, [] => .error .usage
  | some a, w :: r => if isOptionWord w then .error .usage else
      match m.option O a w with
      | .ok m => m.words O args none r
      | .error e => .error e
  | none, w :: r => if w = c!"--" then m.positionals r else
      match m.word O args w with
      | .ok (m, p) => m.words O args p r
      | .error e => .error e

/-- The arguments of `rops encrypt` (args/encrypt.rs:7-21). -/
def encryptOptions : List Arg :=
  [.age, .awsKms, .encryptedSuffix, .encryptedRegex, .unencryptedSuffix, .unencryptedRegex, .macOnlyEncrypted, .config,
   .format, .inPlace, .help]

/-- The arguments of `rops decrypt` and `rops refresh` (args/decrypt.rs:7-14,
args/refresh.rs:7-14). -/
def placeOptions : List Arg := [.config, .format, .inPlace, .help]

/-- The arguments of `rops edit` (args/edit.rs:4). -/
def editOptions : List Arg := [.config, .format, .help]

/-- The arguments of `rops keys add` and `rops keys remove` (args/keys.rs:15-25). -/
def keyOptions : List Arg := [.age, .awsKms, .format, .help]

/-- The options of partial encryption as a group with `multiple = false` (args/misc_args.rs:6):
an error if more than one is given. -/
def SettingArgs.single (a : SettingArgs) : Except Stop (Option PartialEncryption) :=
  match a with
  | ⟨none, none, none, none⟩ => .ok none
  | ⟨some s, none, none, none⟩ => .ok (some (.encryptedSuffix s))
  | ⟨none, some r, none, none⟩ => .ok (some (.encryptedRegex r))
  | ⟨none, none, some s, none⟩ => .ok (some (.unencryptedSuffix s))
  | ⟨none, none, none, some r⟩ => .ok (some (.unencryptedRegex r))
  | _ => .error .usage

/-- `InputArgs` from the values found. -/
def Matches.input (m : Matches) : InputArgs := { config := m.config, format := m.format, file := m.file }

/-- `rops encrypt`; what is required by other arguments is checked in `EncryptLine.args`. -/
def encryptCommand (O : DocOps) (ws : List Str) : Except Stop Command :=
  match Matches.empty.words O encryptOptions none ws with
  | .error e => .error e
  | .ok m => match m.settings.single with
    | .error e => .error e
    | .ok setting => .ok (.encrypt
        { keys := { age := m.age, kms := m.kms }, setting, macOnlyEncrypted := m.macOnlyEncrypted, input := m.input
          inPlace := m.inPlace })

/-- `rops decrypt` and `rops refresh`. -/
def placeCommand (O : DocOps) (ws : List Str) : Except Stop PlaceLine :=
  match Matches.empty.words O placeOptions none ws with
  | .error e => .error e
  | .ok m => .ok { input := m.input, inPlace := m.inPlace }

/-- `rops edit`. -/
def editCommand (O : DocOps) (ws : List Str) : Except Stop InputArgs :=
  match Matches.empty.words O editOptions none ws with
  | .error e => .error e
  | .ok m => .ok m.input

/-- `rops keys add` and `rops keys remove`: the file is required. -/
def keysCommand (O : DocOps) (ws : List Str) : Except Stop KeyArgs :=
  match Matches.empty.words O keyOptions none ws with
  | .error e => .error e
  | .ok m => match m.file with
    | none => .error .usage
    | some file => .ok { keys := { age := m.age, kms := m.kms }, format := m.format, file }

/-- A word in the place of a subcommand that names none. -/
def notSubcommand : Str → Stop
  | '-' :: 'h' :: _ => .help
  | w => if w = c!"--help" ∨ w = c!"help" then .help else .usage

/-- `KeysSubcommand` (args/keys.rs:7-13). -/
def parseKeys (O : DocOps) : List Str → Except Stop Command
  | [] => .error .usage
  | w :: ws =>
    if w = c!"add" then (keysCommand O ws).map .addKeys
    else if w = c!"remove" then (keysCommand O ws).map .removeKeys
    else .error (notSubcommand w)

/-- `CliArgs::parse` (run.rs:6, args/core.rs:5-28); `argv` is without the name of the program.
(Simplification: `rops help x` shows the help also if `x` is no subcommand.) -/
def parseArgs (O : DocOps) : List Str → Except Stop Command
  | [] => .error .usage
  | w :: ws =>
    if w = c!"encrypt" ∨ w = c!"e" then encryptCommand O ws
    else if w = c!"decrypt" ∨ w = c!"d" then (placeCommand O ws).map .decrypt
    else if w = c!"edit" then (editCommand O ws).map .edit
    else if w = c!"keys" ∨ w = c!"k" then parseKeys O ws
    else if w = c!"refresh" then (placeCommand O ws).map .refresh
    else .error (notSubcommand w)

/-- `main` (crates/cli/src/main.rs:1-3): `run` with the arguments of the process. `helpText` is
what `clap` shows as help. -/
def Proc.main (P : Proc) (helpText : Str) (argv : List Str) (i : Nat) : Run :=
  match parseArgs P.O argv with
  | .ok c => P.run c i
  | .error .help => ([.print helpText], .ok ())
  | .error .usage => ([], .error .usage)
  | .error .panic => ([], .error .panic)

end Rops
