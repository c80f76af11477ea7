import Verif.Spec.YamlScalars
import Verif.Spec.ContentFormats
import Verif.Spec.CliHistory
import Verif.Spec.JsonText
/-!
# Histories of YAML files, with the scalars of YAML
-/

namespace Rops.Spec

/-- The layout of a document without tags, all keys texts, and less than `limit` levels. -/
def YamlOrdinary (limit : Nat) (l : List (YamlNode × YamlNode)) : Prop :=
  ∃ d t, l = Yaml.entryNodes d ∧ UntaggedMap d ∧ yamlMap d = some t ∧ nestingMap t + 1 < limit

/-- What is needed of the layout of YAML: it reads what it writes, at least for documents without tags, with texts as
keys and less than `limit` levels; and metadata is not too deep. -/
structure YamlLaws (L : YamlLayout) (limit : Nat) : Prop where
  layout : YamlLayoutLaws L (YamlOrdinary limit)
  room : 4 < limit

/-- A YAML document that may be encrypted: all keys are texts, no top-level key "sops", no key with a ':' (see C08),
not too many levels. -/
def YamlPortable (limit : Nat) (d : List (Yaml × Yaml)) : Prop :=
  ∃ t, yamlMap d = some t ∧ c!"sops" ∉ topKeys t ∧ NoColon t ∧ nestingMap t + 1 < limit

/-- The YAML file at `path` was encrypted with the document `d` or edited to it, and since then
its keys were changed, it was refreshed, or edits were cancelled, any number of times; now it has the
text `s`. -/
inductive YamlHistory (E : Env) (O : DocOps) (T : (x : Fmt) → TextOps x.doc) (L : YamlLayout) (limit : Nat) (path : Str) :
    Str → List (Yaml × Yaml) → Prop
  | encrypted {P : Proc} {l : EncryptLine} {i : Nat} {s s' : Str} {d : List (Yaml × Yaml)} :
    Ran E O T .yaml path P (.encrypt l) i s s' → L.ops.parse s = some d → YamlPortable limit d → YamlHistory E O T L limit path s' d
  | keysAdded {P : Proc} {a : KeyArgs} {i : Nat} {s s' : Str} {d : List (Yaml × Yaml)} : YamlHistory E O T L limit path s d →
    Ran E O T .yaml path P (.addKeys a) i s s' → YamlHistory E O T L limit path s' d
  | keysRemoved {P : Proc} {a : KeyArgs} {i : Nat} {s s' : Str} {d : List (Yaml × Yaml)} : YamlHistory E O T L limit path s d →
    Ran E O T .yaml path P (.removeKeys a) i s s' → YamlHistory E O T L limit path s' d
  | refreshed {P : Proc} {l : PlaceLine} {i : Nat} {s s' : Str} {d : List (Yaml × Yaml)} : YamlHistory E O T L limit path s d →
    Ran E O T .yaml path P (.refresh l) i s s' → YamlHistory E O T L limit path s' d
  | cancelled {P : Proc} {a : InputArgs} {i : Nat} {s s' : Str} {d : List (Yaml × Yaml)} : YamlHistory E O T L limit path s d →
    Ran E O T .yaml path P (.edit a) i s s' → Cancelled L.ops.parse P.editor → YamlHistory E O T L limit path s' d
  | edited {P : Proc} {a : InputArgs} {i : Nat} {s s' : Str} {d d' : List (Yaml × Yaml)} : YamlHistory E O T L limit path s d →
    Ran E O T .yaml path P (.edit a) i s s' → Edited L.ops.parse d' P.editor → YamlPortable limit d' →
    YamlHistory E O T L limit path s' d'

end Rops.Spec
