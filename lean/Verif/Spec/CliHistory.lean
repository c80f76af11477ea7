import Verif.Spec.Cli
import Verif.Spec.Document
/-!
# Histories of a file under the commands of the program
-/

namespace Rops.Spec

/-- The process runs the same program with the same libraries; private keys, files, terminal
and editor may be others. -/
structure SameProgram (E : Env) (O : DocOps) (T : (x : Fmt) → TextOps x.doc) (P : Proc) : Prop where
  env : ∃ host, P.env = E.withHost host
  docs : P.O = O
  texts : P.T = T

/-- The second map has the keys and arrays of the first, and its values or something encrypted
in their places. -/
def StandsFor (m : RMap Value) (m' : RMap EncLeaf) : Prop :=
  shapeMap m' = shapeMap m ∧
    Zip (fun pv pl => pl.1 = pv.1 ∧ (pl.2 = .escaped pv.2 ∨ ∃ e, pl.2 = .encrypted e)) (leaves m) (leaves m')

/-- If the text was written for an encrypted file for the document `m` then what was written is
read from it (in the order in which the format writes). -/
def ReadBack (C : Cipher) (x : Fmt) (T : TextOps x.doc) (m : RMap Value) (s : Str) : Prop :=
  ∀ (f : EncFile x.doc.F) (m' : RMap EncLeaf), StandsFor m m' → x.doc.F.encOfInternal C m' = some f.map →
    s = EncFile.toText T C f → T.parse s = some (x.doc.order (f.toDoc x.doc C))

/-- Documents that survive being written with metadata: no top-level key "sops", and in TOML
distinct keys and values before tables. -/
structure Keepable (fl : FloatOps) (x : Fmt) (m : RMap Value) : Prop where
  fits : ∀ p, Fits fl (docRep x) p m
  sops : c!"sops" ∉ topKeys m
  toml : x = .toml → (topKeys m).Nodup ∧ ValuesFirstMap m

/-- The texts of the keys are read as the keys. -/
def KeysWritable (O : DocOps) (k : IntegrationKeys) : Prop :=
  (∀ id ∈ k.age, KeyWritable O .age id) ∧ (∀ id ∈ k.kms, KeyWritable O .kms id)

/-- The same for the rules of a configuration, with valid settings. -/
def ConfigWritable (O : DocOps) (config : Config) : Prop :=
  ∀ r ∈ config, KeysWritable O r.keys ∧ ∀ p, r.partialEncryption = some p → p.ok O = true

/-- The keys given on a command line. -/
def givenKeys : Command → IntegrationKeys
  | .encrypt l => l.keys
  | .addKeys a => a.keys
  | .removeKeys a => a.keys
  | _ => { age := [], kms := [] }

/-- The setting given on a command line. -/
def givenSetting : Command → Option PartialEncryption
  | .encrypt l => l.setting
  | _ => none

/-- The format given on a command line. -/
def givenFormat : Command → Option Fmt
  | .encrypt l => l.input.format
  | .decrypt l => l.input.format
  | .refresh l => l.input.format
  | .edit a => a.format
  | .addKeys a => a.format
  | .removeKeys a => a.format

/-- The file a command reads as an encrypted file. -/
def opens : Command → Option Str
  | .encrypt _ => none
  | .decrypt l => l.input.file
  | .refresh l => l.input.file
  | .edit a => a.file
  | .addKeys a => some a.file
  | .removeKeys a => some a.file

/-- A command ran on the file at `path` without an error; it found the text `s` there and left
the text `s'`. -/
structure Ran (E : Env) (O : DocOps) (T : (x : Fmt) → TextOps x.doc) (x : Fmt) (path : Str) (P : Proc) (c : Command)
    (i : Nat) (s s' : Str) : Prop where
  program : SameProgram E O T P
  target : target P c = some path
  format : getFormat (some path) (givenFormat c) = .ok x
  run : ∃ es, P.run c i = (es, .ok ()) ∧ filesAfter P.file es path = .data (utf8 s')
  found : P.file path = .data (utf8 s)
  config : ∀ config, P.retrieveConfig c.configPath = .ok config → ConfigWritable O config
  keys : KeysWritable O (givenKeys c)
  setting : ∀ p, givenSetting c = some p → p.ok O = true
  temp : FreshTemp P

/-- The file at `path` was encrypted with the document `m` or edited to it, and since then its
keys were changed, it was refreshed, or edits were cancelled, any number of times; now it has the
text `s`. -/
inductive Kept (E : Env) (O : DocOps) (T : (x : Fmt) → TextOps x.doc) (x : Fmt) (path : Str) : Str → RMap Value → Prop
  | encrypted {P : Proc} {l : EncryptLine} {i : Nat} {s s' : Str} {map : x.doc.F.Map} {m : RMap Value} :
    Ran E O T x path P (.encrypt l) i s s' → (T x).parse s = some map → x.doc.F.toInternal map = .ok m →
    Keepable E.fl x m → ReadBack E.C x (T x) m s' → Kept E O T x path s' m
  | keysAdded {P : Proc} {a : KeyArgs} {i : Nat} {s s' : Str} {m : RMap Value} : Kept E O T x path s m →
    Ran E O T x path P (.addKeys a) i s s' → ReadBack E.C x (T x) m s' → Kept E O T x path s' m
  | keysRemoved {P : Proc} {a : KeyArgs} {i : Nat} {s s' : Str} {m : RMap Value} : Kept E O T x path s m →
    Ran E O T x path P (.removeKeys a) i s s' → ReadBack E.C x (T x) m s' → Kept E O T x path s' m
  | refreshed {P : Proc} {l : PlaceLine} {i : Nat} {s s' : Str} {m : RMap Value} : Kept E O T x path s m →
    Ran E O T x path P (.refresh l) i s s' → ReadBack E.C x (T x) m s' → Kept E O T x path s' m
  | cancelled {P : Proc} {a : InputArgs} {i : Nat} {s s' : Str} {m : RMap Value} : Kept E O T x path s m →
    Ran E O T x path P (.edit a) i s s' → Cancelled (T x).parse P.editor → Kept E O T x path s' m
  | edited {P : Proc} {a : InputArgs} {i : Nat} {s s' : Str} {m m' : RMap Value} {other : x.doc.F.Map} :
    Kept E O T x path s m → Ran E O T x path P (.edit a) i s s' → Edited (T x).parse other P.editor →
    x.doc.F.toInternal other = .ok m' → Keepable E.fl x m' → ReadBack E.C x (T x) m' s' → Kept E O T x path s' m'

/-- The document that a value of the format stands for. -/
def docOf : (x : Fmt) → x.doc.F.Map → Option (RMap Scalar)
  | .yaml, m => yamlMap m
  | .json, m => some (jsonMap m)
  | .toml, m => some (tomlMap m)

/-- A date is read as its text. -/
def undated : Scalar → Scalar
  | .date s => .str s
  | s => s

/-- The documents are the same: keys, order, nesting, nulls and scalars, but for dates that became
texts. -/
def SameDoc (d d' : RMap Scalar) : Prop :=
  shapeMap d = shapeMap d' ∧
  (leaves d).map (fun ps => (ps.1, undated ps.2)) = (leaves d').map (fun ps => (ps.1, undated ps.2))

end Rops.Spec
