import Verif.Model.Args
/-!
# Command lines

What the words of a command line say, independently of the order in which they are parsed:
options with values, flags, and files, each of which may be written in several ways.
-/

namespace Rops.Spec

/-- What a command line consists of. -/
inductive Item where
  | option (a : Arg) (v : Str)
  | flag (a : Arg)
  | file (p : Str)
deriving DecidableEq, Repr

/-- The options that take a value, with their long and short names. -/
inductive Takes : Arg → Str → Option Char → Prop
  | age : Takes .age c!"age" none
  | awsKms : Takes .awsKms c!"aws-kms" none
  | encryptedSuffix : Takes .encryptedSuffix c!"encrypted-suffix" none
  | encryptedRegex : Takes .encryptedRegex c!"encrypted-regex" none
  | unencryptedSuffix : Takes .unencryptedSuffix c!"unencrypted-suffix" none
  | unencryptedRegex : Takes .unencryptedRegex c!"unencrypted-regex" none
  | config : Takes .config c!"config" (some 'c')
  | format : Takes .format c!"format" (some 'f')

/-- The flags, with their long and short names. -/
inductive IsFlag : Arg → Str → Option Char → Prop
  | macOnlyEncrypted : IsFlag .macOnlyEncrypted c!"mac-only-encrypted" none
  | inPlace : IsFlag .inPlace c!"in-place" (some 'i')

/-- A word that can be a value or a file although it is not marked as such: it does not begin
with a dash, or is only a dash. -/
def PlainWord (w : Str) : Prop := w = ['-'] ∨ ∀ r, w ≠ '-' :: r

/-- Flags written with their short names. -/
inductive Flags (allowed : Arg → Prop) : List Item → Str → Prop
  | nil : Flags allowed [] []
  | cons {a n c is s} : allowed a → IsFlag a n (some c) → Flags allowed is s → Flags allowed (.flag a :: is) (c :: s)

/-- How items are written. -/
inductive Written (allowed : Arg → Prop) : List Item → List Str → Prop
  | nil : Written allowed [] []
  /-- everything after `--` is a file -/
  | rest (ps : List Str) : Written allowed (ps.map .file) (c!"--" :: ps)
  /-- `path` -/
  | file {p is ws} : PlainWord p → Written allowed is ws → Written allowed (.file p :: is) (p :: ws)
  /-- `--name value` -/
  | long {a n c v is ws} : allowed a → Takes a n c → PlainWord v → Written allowed is ws →
      Written allowed (.option a v :: is) ((c!"--" ++ n) :: v :: ws)
  /-- `--name=value` -/
  | longEq {a n c v is ws} : allowed a → Takes a n c → Written allowed is ws →
      Written allowed (.option a v :: is) ((c!"--" ++ n ++ '=' :: v) :: ws)
  /-- `--flag` -/
  | longFlag {a n c is ws} : allowed a → IsFlag a n c → Written allowed is ws →
      Written allowed (.flag a :: is) ((c!"--" ++ n) :: ws)
  /-- `-i` -/
  | shorts {fs s is ws} : Flags allowed fs s → s ≠ [] → Written allowed is ws → Written allowed (fs ++ is) (('-' :: s) :: ws)
  /-- `-cvalue`, `-icvalue` -/
  | shortsValue {fs s a n c v is ws} : Flags allowed fs s → allowed a → Takes a n (some c) → v ≠ [] → v.head? ≠ some '=' →
      Written allowed is ws → Written allowed (fs ++ .option a v :: is) (('-' :: (s ++ c :: v)) :: ws)
  /-- `-c=value` -/
  | shortsEq {fs s a n c v is ws} : Flags allowed fs s → allowed a → Takes a n (some c) →
      Written allowed is ws → Written allowed (fs ++ .option a v :: is) (('-' :: (s ++ c :: '=' :: v)) :: ws)
  /-- `-c value` -/
  | shortsNext {fs s a n c v is ws} : Flags allowed fs s → allowed a → Takes a n (some c) → PlainWord v →
      Written allowed is ws → Written allowed (fs ++ .option a v :: is) (('-' :: (s ++ [c])) :: v :: ws)

/-- The values given to an option, in the order given. -/
def values (a : Arg) (is : List Item) : List Str :=
  is.filterMap fun
    | .option b v => if b = a then some v else none
    | _ => none

/-- How often a flag is given. -/
def times (a : Arg) (is : List Item) : Nat := is.count (.flag a)

/-- The files given. -/
def files (is : List Item) : List Str :=
  is.filterMap fun
    | .file p => some p
    | _ => none

/-- The settings of partial encryption given. -/
def settings (is : List Item) : List PartialEncryption :=
  is.filterMap fun
    | .option .encryptedSuffix s => some (.encryptedSuffix s)
    | .option .encryptedRegex r => some (.encryptedRegex r)
    | .option .unencryptedSuffix s => some (.unencryptedSuffix s)
    | .option .unencryptedRegex r => some (.unencryptedRegex r)
    | _ => none

/-- The names of formats. -/
inductive FormatName : Str → Fmt → Prop
  | yaml : FormatName c!"yaml" .yaml
  | yml : FormatName c!"yml" .yaml
  | json : FormatName c!"json" .json
  | toml : FormatName c!"toml" .toml

/-- A path given at most once, and not empty. -/
def PathGiven (given : List Str) (p : Option Str) : Prop := given = p.toList ∧ p ≠ some []

/-- A format given at most once. -/
def FormatGiven (given : List Str) : Option Fmt → Prop
  | none => given = []
  | some f => ∃ n, given = [n] ∧ FormatName n f

/-- The keys given, in the order given. -/
def KeysGiven (O : DocOps) (is : List Item) (k : IntegrationKeys) : Prop :=
  (values .age is).map O.A.parseRecipient = k.age.map some ∧
    (values .awsKms is).map (AwsKeyId.parse O.arn) = k.kms.map Except.ok

/-- The input given. -/
def InputGiven (is : List Item) (a : InputArgs) : Prop :=
  PathGiven (values .config is) a.config ∧ FormatGiven (values .format is) a.format ∧ PathGiven (files is) a.file

/-- A flag given at most once. -/
def FlagGiven (a : Arg) (is : List Item) (b : Bool) : Prop := times a is = if b then 1 else 0

/-- At most one setting of partial encryption is given, a valid regular expression if it is
one. -/
def SettingGiven (O : DocOps) (is : List Item) (p : Option PartialEncryption) : Prop :=
  settings is = p.toList ∧ ∀ r, p = some (.encryptedRegex r) ∨ p = some (.unencryptedRegex r) → O.regexOk r = true

/-- The options of `rops decrypt` and `rops refresh`. -/
def ForPlace (a : Arg) : Prop := a = .config ∨ a = .format ∨ a = .inPlace

/-- The options of `rops edit`. -/
def ForEdit (a : Arg) : Prop := a = .config ∨ a = .format

/-- The options of `rops keys add` and `rops keys remove`. -/
def ForKeys (a : Arg) : Prop := a = .age ∨ a = .awsKms ∨ a = .format

/-- How a key of AWS KMS is given. -/
def KmsWords (v : Str) (ws : List Str) : Prop := ws = [c!"--aws-kms", v] ∨ ws = [c!"--aws-kms=" ++ v]

/-- The commands that can be given keys. -/
def WithKeys (ws : List Str) : Prop :=
  ws = [c!"encrypt"] ∨ ws = [c!"e"] ∨ ∃ k a, ws = [k, a] ∧ (k = c!"keys" ∨ k = c!"k") ∧ (a = c!"add" ∨ a = c!"remove")

/-- What the words after `encrypt` say. -/
def SaysEncrypt (O : DocOps) (ws : List Str) (l : EncryptLine) : Prop :=
  ∃ is, Written (fun _ => True) is ws ∧ KeysGiven O is l.keys ∧ SettingGiven O is l.setting ∧
    FlagGiven .macOnlyEncrypted is l.macOnlyEncrypted ∧ InputGiven is l.input ∧ FlagGiven .inPlace is l.inPlace

/-- What the words after `decrypt` or `refresh` say. -/
def SaysPlace (ws : List Str) (l : PlaceLine) : Prop :=
  ∃ is, Written ForPlace is ws ∧ InputGiven is l.input ∧ FlagGiven .inPlace is l.inPlace

/-- What the words after `edit` say. -/
def SaysEdit (ws : List Str) (a : InputArgs) : Prop := ∃ is, Written ForEdit is ws ∧ InputGiven is a

/-- What the words after `keys add` or `keys remove` say. -/
def SaysKeys (O : DocOps) (ws : List Str) (a : KeyArgs) : Prop :=
  ∃ is, Written ForKeys is ws ∧ KeysGiven O is a.keys ∧ FormatGiven (values .format is) a.format ∧
    PathGiven (files is) (some a.file)

/-- What the words of a command line say. -/
inductive Says (O : DocOps) : List Str → Command → Prop
  | encrypt {w ws l} : w = c!"encrypt" ∨ w = c!"e" → SaysEncrypt O ws l → Says O (w :: ws) (.encrypt l)
  | decrypt {w ws l} : w = c!"decrypt" ∨ w = c!"d" → SaysPlace ws l → Says O (w :: ws) (.decrypt l)
  | edit {ws a} : SaysEdit ws a → Says O (c!"edit" :: ws) (.edit a)
  | addKeys {w ws a} : w = c!"keys" ∨ w = c!"k" → SaysKeys O ws a → Says O (w :: c!"add" :: ws) (.addKeys a)
  | removeKeys {w ws a} : w = c!"keys" ∨ w = c!"k" → SaysKeys O ws a → Says O (w :: c!"remove" :: ws) (.removeKeys a)
  | refresh {ws l} : SaysPlace ws l → Says O (c!"refresh" :: ws) (.refresh l)

/-- The keys have texts from which they are read. -/
def Named (O : DocOps) (k : IntegrationKeys) : Prop :=
  (∀ x ∈ k.age, ∃ t, O.A.parseRecipient t = some x) ∧ ∀ x ∈ k.kms, ∃ t, AwsKeyId.parse O.arn t = .ok x

/-- The paths are not empty. -/
def PathsNamed (a : InputArgs) : Prop := a.config ≠ some [] ∧ a.file ≠ some []

/-- The commands that can be given at all. -/
def Sayable (O : DocOps) : Command → Prop
  | .encrypt l => Named O l.keys ∧ PathsNamed l.input ∧
      ∀ r, l.setting = some (.encryptedRegex r) ∨ l.setting = some (.unencryptedRegex r) → O.regexOk r = true
  | .decrypt l | .refresh l => PathsNamed l.input
  | .edit a => PathsNamed a
  | .addKeys a | .removeKeys a => Named O a.keys ∧ a.file ≠ []

end Rops.Spec
