import Verif.Model.AesGcm
import Verif.Model.Sha512
import Verif.Model.Dates
import Verif.Model.TomlDates
import Verif.Model.YamlLayout
import Verif.Spec.JsonFiles
import Verif.Spec.TomlFiles
import Verif.Spec.YamlFiles
import Verif.Spec.Floats
import Verif.Lemmas.Floats
/-!
# Vocabulary for C91: the program with all of its parts
-/

namespace Rops.Spec

/-- The program with AES-256-GCM, SHA-512, the floats of Rust, the dates of `chrono` and the texts of JSON, YAML and TOML. Left open
are `age`, AWS KMS, regular expressions, the clock, random numbers and the system. -/
structure Whole (E : Env) (O : DocOps) (T : (x : Fmt) → TextOps x.doc) : Prop where
  cipher : E.C = aesGcm
  hasher : E.H = sha512
  floats : E.fl = f64Floats
  dates : O.parseDate = chronoDate
  json : T .json = serdeFloats.ops
  yaml : T .yaml = blockLayout.ops
  toml : T .toml = rustToml.ops
  age : AgeLaws E.A
  kms : KmsLaws E.K
  nonce : ∀ i, (E.nonce i).length = 32
  key : ∀ i, (E.newKey i).length = 32
  clock : ∀ i, Calendar (E.clock i)

/-- The documents that can be kept encrypted: no key has a colon and none at the top is "sops"; in JSON, floats have few digits; in
YAML, keys are texts; in TOML, tables are after the other values, and not too deep. -/
def DocFits : (x : Fmt) → x.doc.F.Map → Prop
  | .json, d => c!"sops" ∉ entryKeys (show List (Str × Json) from d) ∧ NoColon (show List (Str × Json) from d) ∧
    ∀ p f, (p, .num (.float f)) ∈ leaves (show List (Str × Json) from d) → ShortFloat f
  | .yaml, d => ∃ t, yamlMap (show List (Yaml × Yaml) from d) = some t ∧ c!"sops" ∉ topKeys t ∧ NoColon t
  | .toml, d => TomlPortable rustToml d

/-- What is given back: dates of TOML are texts. -/
def GivenBack : (x : Fmt) → x.doc.F.Map → x.doc.F.Map
  | .json, d => d
  | .yaml, d => d
  | .toml, d => tomlUndatedMap d

/-- The file at `path`, of the format `x`, was encrypted with the document `d` or edited to it, and since then its keys were changed,
it was refreshed, or edits were cancelled, any number of times; now it has the text `s`. -/
inductive Life (E : Env) (O : DocOps) (T : (x : Fmt) → TextOps x.doc) (x : Fmt) (path : Str) : Str → x.doc.F.Map → Prop
  | encrypted {P : Proc} {l : EncryptLine} {i : Nat} {s s' : Str} {d : x.doc.F.Map} :
    Ran E O T x path P (.encrypt l) i s s' → (T x).parse s = some d → DocFits x d → Life E O T x path s' d
  | keysAdded {P : Proc} {a : KeyArgs} {i : Nat} {s s' : Str} {d : x.doc.F.Map} : Life E O T x path s d →
    Ran E O T x path P (.addKeys a) i s s' → Life E O T x path s' d
  | keysRemoved {P : Proc} {a : KeyArgs} {i : Nat} {s s' : Str} {d : x.doc.F.Map} : Life E O T x path s d →
    Ran E O T x path P (.removeKeys a) i s s' → Life E O T x path s' d
  | refreshed {P : Proc} {l : PlaceLine} {i : Nat} {s s' : Str} {d : x.doc.F.Map} : Life E O T x path s d →
    Ran E O T x path P (.refresh l) i s s' → Life E O T x path s' d
  | cancelled {P : Proc} {a : InputArgs} {i : Nat} {s s' : Str} {d : x.doc.F.Map} : Life E O T x path s d →
    Ran E O T x path P (.edit a) i s s' → Cancelled (T x).parse P.editor → Life E O T x path s' d
  | edited {P : Proc} {a : InputArgs} {i : Nat} {s s' : Str} {d d' : x.doc.F.Map} : Life E O T x path s d →
    Ran E O T x path P (.edit a) i s s' → Edited (T x).parse d' P.editor → DocFits x d' → Life E O T x path s' d'

end Rops.Spec
