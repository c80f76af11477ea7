import Verif.Spec.TomlText
import Verif.Spec.CliHistory
/-!
# Histories of TOML files, with the syntax of TOML
-/

namespace Rops.Spec

/-- What is needed of the scalars of TOML: the floats that are read are given by the texts that Rust
prints for them, and are read from what is written for them; the text of no date is the one that
stands for null; and metadata is not too deep. -/
structure TomlScalarLaws (S : TomlScalars) (fl : FloatOps) : Prop where
  canonical : ∀ t f, tomlReadFloat S t = some f → fl.Canonical f
  kept : ∀ t f, tomlReadFloat S t = some f → TomlScalarKept S (tomlFloat f) (.float f)
  dates : ∀ t x, S.date t = some x → x ≠ c!"null"
  room : 4 < S.limit

/-- A TOML document that may be encrypted: no top-level key "sops", no key with a ':' (see C08), not
too many levels, and in each table the values come before the sections (as dotted keys and inline
tables allow it otherwise). -/
structure TomlPortable (S : TomlScalars) (d : List (Str × Toml)) : Prop where
  sops : c!"sops" ∉ d.map Prod.fst
  colon : NoColon (tomlMap d)
  levels : tomlLevels (.table d) < S.limit
  order : ValuesFirstMap (tomlMap d)

mutual
/-- The value with texts in place of dates. -/
def tomlUndated : Toml → Toml
  | .datetime s => .str s
  | .array l => .array (tomlUndatedSeq l)
  | .table m => .table (tomlUndatedMap m)
  | t => t
/-- See `tomlUndated`. -/
def tomlUndatedSeq : List Toml → List Toml
  | [] => []
  | t :: r => tomlUndated t :: tomlUndatedSeq r
/-- See `tomlUndated`. -/
def tomlUndatedMap : List (Str × Toml) → List (Str × Toml)
  | [] => []
  | (k, t) :: r => (k, tomlUndated t) :: tomlUndatedMap r
end

/-- The TOML file at `path` was encrypted with the document `d` or edited to it, and since then
its keys were changed, it was refreshed, or edits were cancelled, any number of times; now it has the
text `s`. -/
inductive TomlHistory (E : Env) (O : DocOps) (T : (x : Fmt) → TextOps x.doc) (S : TomlScalars) (path : Str) :
    Str → List (Str × Toml) → Prop
  | encrypted {P : Proc} {l : EncryptLine} {i : Nat} {s s' : Str} {d : List (Str × Toml)} :
    Ran E O T .toml path P (.encrypt l) i s s' → S.ops.parse s = some d → TomlPortable S d → TomlHistory E O T S path s' d
  | keysAdded {P : Proc} {a : KeyArgs} {i : Nat} {s s' : Str} {d : List (Str × Toml)} : TomlHistory E O T S path s d →
    Ran E O T .toml path P (.addKeys a) i s s' → TomlHistory E O T S path s' d
  | keysRemoved {P : Proc} {a : KeyArgs} {i : Nat} {s s' : Str} {d : List (Str × Toml)} : TomlHistory E O T S path s d →
    Ran E O T .toml path P (.removeKeys a) i s s' → TomlHistory E O T S path s' d
  | refreshed {P : Proc} {l : PlaceLine} {i : Nat} {s s' : Str} {d : List (Str × Toml)} : TomlHistory E O T S path s d →
    Ran E O T .toml path P (.refresh l) i s s' → TomlHistory E O T S path s' d
  | cancelled {P : Proc} {a : InputArgs} {i : Nat} {s s' : Str} {d : List (Str × Toml)} : TomlHistory E O T S path s d →
    Ran E O T .toml path P (.edit a) i s s' → Cancelled S.ops.parse P.editor → TomlHistory E O T S path s' d
  | edited {P : Proc} {a : InputArgs} {i : Nat} {s s' : Str} {d d' : List (Str × Toml)} : TomlHistory E O T S path s d →
    Ran E O T .toml path P (.edit a) i s s' → Edited S.ops.parse d' P.editor → TomlPortable S d' →
    TomlHistory E O T S path s' d'

end Rops.Spec
