import Verif.Model.TomlText
/-!
# Specification vocabulary for the texts of TOML documents
-/

namespace Rops.Spec

/-- A text that is written for a scalar without quotes is read as that scalar. -/
structure TomlScalarKept (S : TomlScalars) (s : Str) (v : Toml) : Prop where
  nonempty : s ≠ []
  chars : ∀ c ∈ s, tomlTokenChar c = true
  read : tomlScalar S s = some v

mutual
/-- The floats and dates of a value are read as they are written, and no key is twice in a
table. -/
def TomlSound (S : TomlScalars) : Toml → Prop
  | .float s => TomlScalarKept S (tomlFloat s) (.float s)
  | .datetime s => TomlScalarKept S s (.datetime s)
  | .array l => TomlSoundSeq S l
  | .table m => (m.map Prod.fst).Nodup ∧ TomlSoundMap S m
  | _ => True
/-- See `TomlSound`. -/
def TomlSoundSeq (S : TomlScalars) : List Toml → Prop
  | [] => True
  | t :: r => TomlSound S t ∧ TomlSoundSeq S r
/-- See `TomlSound`. -/
def TomlSoundMap (S : TomlScalars) : List (Str × Toml) → Prop
  | [] => True
  | (_, t) :: r => TomlSound S t ∧ TomlSoundMap S r
end

mutual
/-- How many arrays and tables are within one another. -/
def tomlLevels : Toml → Nat
  | .array l => tomlLevelsSeq l + 1
  | .table m => tomlLevelsMap m + 1
  | _ => 0
/-- See `tomlLevels`. -/
def tomlLevelsSeq : List Toml → Nat
  | [] => 0
  | t :: r => max (tomlLevels t) (tomlLevelsSeq r)
/-- See `tomlLevels`. -/
def tomlLevelsMap : List (Str × Toml) → Nat
  | [] => 0
  | (_, t) :: r => max (tomlLevels t) (tomlLevelsMap r)
end

/-- Documents that are read from their text. -/
structure TomlWritable (S : TomlScalars) (m : List (Str × Toml)) : Prop where
  sound : TomlSound S (.table m)
  levels : tomlLevels (.table m) < S.limit

/-- A value that is read from a text: its floats and dates are read from texts, and no key is twice
in a table. -/
inductive TomlRead (S : TomlScalars) : Toml → Prop
  | str (s : Str) : TomlRead S (.str s)
  | int (n : Int64) : TomlRead S (.int n)
  | bool (b : Bool) : TomlRead S (.bool b)
  | float {t f : Str} : tomlReadFloat S t = some f → TomlRead S (.float f)
  | datetime {t d : Str} : S.date t = some d → TomlRead S (.datetime d)
  | array {l : List Toml} : (∀ t ∈ l, TomlRead S t) → TomlRead S (.array l)
  | table {m : List (Str × Toml)} : (m.map Prod.fst).Nodup → (∀ e ∈ m, TomlRead S e.2) → TomlRead S (.table m)

end Rops.Spec
