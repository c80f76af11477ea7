import Verif.Model.TomlText
/-!
# Specification of what TOML documents say

What a sequence of statements says, place by place, without building tables.
-/

namespace Rops.Spec

/-- One step into a value. -/
inductive PlaceStep where
  | key (k : Str)
  | index (i : Nat)
deriving DecidableEq

/-- The value at a place within a value. -/
inductive TomlIn : Toml → List PlaceStep → Toml → Prop
  | here {v : Toml} : TomlIn v [] v
  | key {m : List (Str × Toml)} {k : Str} {x v : Toml} {w : List PlaceStep} : (k, x) ∈ m → TomlIn x w v →
    TomlIn (.table m) (.key k :: w) v
  | index {l : List Toml} {i : Nat} {x v : Toml} {w : List PlaceStep} : l[i]? = some x → TomlIn x w v →
    TomlIn (.array l) (.index i :: w) v

/-- How many tables an array of tables has after some statements: as many as there are headers for it
since the last header for an array that it is within. -/
def tablesSoFar (l : List TomlStmt) (q : List Str) : Nat :=
  l.foldl (fun n s => match s with
    | .element r => if r = q then n + 1 else if r <+: q then 0 else n
    | _ => n) 0

/-- Where a path leads after some statements: into the last table of each array of tables. The
second argument is the part of the path before. -/
def tomlPlace (l : List TomlStmt) : List Str → List Str → List PlaceStep
  | _, [] => []
  | q, k :: p => .key k :: ((match tablesSoFar l (q ++ [k]) with
    | 0 => []
    | n + 1 => [.index n]) ++ tomlPlace l (q ++ [k]) p)

/-- The path of the last header, or none. -/
def lastHeader (l : List TomlStmt) : List Str :=
  l.foldl (fun h s => match s with
    | .entry _ _ _ => h
    | .table p => p
    | .element p => p) []

/-- What a statement says after others about a place: that there is a value, or only that there is
a table or an array of tables. -/
inductive SaidBy (l : List TomlStmt) : TomlStmt → List PlaceStep → Option Toml → Prop
  | value {p : List Str} {k : Str} {t v : Toml} {w : List PlaceStep} : TomlIn t w v →
    SaidBy l (.entry p k t) (tomlPlace l [] (lastHeader l ++ p) ++ .key k :: w) (some v)
  | way {p : List Str} {k : Str} {t : Toml} {w : List PlaceStep} : w <+: tomlPlace l [] (lastHeader l ++ p) →
    SaidBy l (.entry p k t) w none
  | table {p : List Str} {w : List PlaceStep} : w <+: tomlPlace l [] p → SaidBy l (.table p) w none
  | element {p : List Str} {w : List PlaceStep} : w <+: tomlPlace (l ++ [.element p]) [] p → SaidBy l (.element p) w none

/-- What statements say about a place. -/
inductive Said (l : List TomlStmt) : List PlaceStep → Option Toml → Prop
  | top : Said l [] none
  | stmt {a b : List TomlStmt} {s : TomlStmt} {w : List PlaceStep} {o : Option Toml} : l = a ++ s :: b → SaidBy a s w o → Said l w o

/-- A table, or an array of one or more. -/
def TomlHolder : Toml → Prop
  | .table _ => True
  | .array l => l ≠ []
  | _ => False

/-- The table that statements describe: their values are in it, and their tables and arrays of tables,
and nothing else is. -/
structure TomlMeans (l : List TomlStmt) (t : Toml) : Prop where
  values : ∀ w v, Said l w (some v) → TomlIn t w v
  tables : ∀ w, Said l w none → ∃ v, TomlHolder v ∧ TomlIn t w v
  only : ∀ w v, TomlIn t w v → Said l w (some v) ∨ (Said l w none ∧ TomlHolder v)
  once : ∀ w v v', TomlIn t w v → TomlIn t w v' → v = v'

/-! ## Which statements fit together -/

/-- What a path leads to: nothing, a value, an array of tables, or a table, with a header of its own
or not, and there through a key with dots or not. -/
inductive TomlKind where
  | nothing
  | value
  | tables
  | table (headed dotted : Bool)
deriving DecidableEq

/-- The last header, and what paths lead to. -/
structure TomlSketch where
  header : List Str
  kind : List Str → TomlKind

/-- Before the first statement. -/
def TomlSketch.start : TomlSketch where
  header := []
  kind q := if q = [] then .table true false else .nothing

/-- After one more statement. Tables on the way are made; a new table of an array is empty. -/
def TomlSketch.step (σ : TomlSketch) : TomlStmt → TomlSketch
  | .entry p k _ => ⟨σ.header, fun q =>
      if q = σ.header ++ (p ++ [k]) then .value
      else if σ.kind q = .nothing ∧ σ.header <+: q ∧ q <+: σ.header ++ p then .table false true
      else σ.kind q⟩
  | .table p => ⟨p, fun q =>
      if q = p then .table true false
      else if σ.kind q = .nothing ∧ q <+: p then .table false false
      else σ.kind q⟩
  | .element p => ⟨p, fun q =>
      if q = p then .tables
      else if p <+: q then .nothing
      else if σ.kind q = .nothing ∧ q <+: p then .table false false
      else σ.kind q⟩

/-- Whether a statement may follow. An entry is new; the parts of its key before the last lead to no
value and to no table with a header, and in the end to nothing or a table that is there through such
keys. A table has one header, and none if it is there through keys. -/
def TomlSketch.Fits (σ : TomlSketch) : TomlStmt → Prop
  | .entry p k _ => σ.kind (σ.header ++ (p ++ [k])) = .nothing ∧
      (∀ r, r ≠ [] → r <+: p → σ.kind (σ.header ++ r) ≠ .value ∧ ∀ d, σ.kind (σ.header ++ r) ≠ .table true d) ∧
      (p = [] ∨ σ.kind (σ.header ++ p) = .nothing ∨ σ.kind (σ.header ++ p) = .table false true)
  | .table p => p ≠ [] ∧ (∀ r, r <+: p → σ.kind r ≠ .value) ∧ (σ.kind p = .nothing ∨ σ.kind p = .table false false)
  | .element p => p ≠ [] ∧ (∀ r, r <+: p → σ.kind r ≠ .value) ∧ (σ.kind p = .nothing ∨ σ.kind p = .tables)

/-- All statements. -/
def TomlSketch.FitsAll : TomlSketch → List TomlStmt → Prop
  | _, [] => True
  | σ, s :: l => σ.Fits s ∧ (σ.step s).FitsAll l

end Rops.Spec
