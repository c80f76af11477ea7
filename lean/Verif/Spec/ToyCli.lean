import Verif.Spec.ToyDoc
import Verif.Spec.Cli
/-! A small process, used only in examples and witnesses. -/

namespace Rops.Toy
open Rops Spec

/-- A small document. -/
def small : DocFormat.json.F.Map := [(c!"a", .leaf (.str c!"x")), (c!"b_plain", .leaf (.bool true))]

/-- A configuration with one rule, given as a TOML document. -/
def configDoc (rule : List (Str × Toml)) : DocFormat.toml.F.Map := [(c!"creation_rules", .array [.table rule])]

/-- A rule for paths that end with "json". -/
def creationRule : CreationRule where
  pathRegex := c!"json"
  macOnlyEncrypted := some true
  partialEncryption := some (.unencryptedSuffix c!"_plain")
  keys := { age := [c!"pk1"], kms := [] }

/-- Its text. -/
def rule : List (Str × Toml) :=
  [(c!"path_regex", .str c!"json"), (c!"mac_only_encrypted", .bool true),
   (c!"partial_encryption", .table [(c!"unencrypted_suffix", .str c!"_plain")]),
   (c!"integration_keys", .table [(c!"age", .array [.str c!"pk1"])])]

/-- Syntaxes; the one of TOML has only one text. -/
def texts (rule : List (Str × Toml)) : (x : Fmt) → TextOps x.doc
  | .json => jsonText
  | .yaml => { render := fun _ => [], parse := fun _ => none }
  | .toml => { render := fun _ => [], parse := fun s => if s = c!"config" then some (configDoc rule) else none }

/-- A process in the directory "/w", with the configuration in the root directory. -/
def proc (rule : List (Str × Toml)) (content : Str) (editor : List Attempt) : Proc where
  env := env
  O := docOps
  T := texts rule
  file p := if p = c!"a.json" then .data (utf8 content) else if p = c!"/.rops.toml" then .data (utf8 c!"config") else .missing
  stdin := .terminal
  configVar := none
  cwd := some [c!"w"]
  saves _ _ := .done
  temp := some c!"/tmp/t"
  stdout := none
  editorVar := some (utf8 c!"ed")
  shlex s := if s = [] then some [] else some [s]
  which _ := none
  handlerSet := true
  editor := editor

/-- The input of `rops … a.json`. -/
def input : InputArgs := { config := none, format := none, file := some c!"a.json" }

/-- `rops encrypt -i --age pk2 a.json`. -/
def encryptLine : EncryptLine :=
  { keys := { age := [c!"pk2"], kms := [] }, setting := none, macOnlyEncrypted := false, input, inPlace := true }

/-- `rops decrypt -i a.json`, `rops refresh -i a.json`. -/
def placeLine : PlaceLine := { input, inPlace := true }

/-- The builder for `small` that `encryptLine` and `rule` make. -/
def smallBuilder : Builder Format.json where
  map := small
  partialEncryption := some (.unencryptedSuffix c!"_plain")
  macOnlyEncrypted := none
  ageKeyIds := [c!"pk2", c!"pk1"]
  kmsKeyIds := []

end Rops.Toy
