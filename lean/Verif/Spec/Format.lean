import Verif.Model.Format
import Verif.Spec.Tree
import Verif.Spec.Syntax
/-!
# Specification vocabulary for formats
-/

namespace Rops.Spec

/-- Values the JSON representation can hold: floats are finite. -/
def jsonRep : Value → Prop
  | .float s => s ≠ c!"inf" ∧ s ≠ c!"-inf" ∧ s ≠ c!"NaN"
  | _ => True

/-- The YAML representation can hold every value. -/
def yamlRep : Value → Prop := fun _ => True

/-- Values the TOML representation can hold: not the text "null". -/
def tomlRep (v : Value) : Prop := v ≠ .string c!"null"

/-- All values of the map can be held. -/
def Holds (rep : Value → Prop) (m : RMap Value) : Prop := ∀ pv ∈ leaves m, rep pv.2

/-- An encrypted map as made by encryption under the setting `cfg`: encrypted values of full
size at the paths to be encrypted, plaintext values that the format can hold elsewhere. -/
def EncHolds (C : Cipher) (rx : RegexMatch) (cfg : Option PartialEncryption) (rep : Value → Prop)
    (m : RMap EncLeaf) : Prop :=
  (∀ p e, (p, EncLeaf.encrypted e) ∈ leaves m → ¬ Plain rx cfg p ∧ e.Sized C) ∧
  (∀ p v, (p, EncLeaf.escaped v) ∈ leaves m → Plain rx cfg p ∧ rep v)

/-! ## Documents independent of the format -/

/-- A scalar of a document other than null. -/
inductive Scalar where
  | bool (b : Bool)
  | int (i : Int)
  | float (s : Str)
  | str (s : Str)
  | date (text : Str)

/-- The value read is the scalar in the document: an integer is read as exactly that
integer. Datetimes (of TOML) are read as their text. -/
def Reads : Scalar → Value → Prop
  | .bool b, v => v = .boolean b
  | .int i, v => ∃ n : Int64, v = .integer n ∧ n.toInt = i
  | .float s, v => v = .float s
  | .str s, v => v = .string s
  | .date s, v => v = .string s

/-- The integer a number of JSON or YAML stands for, or its float. -/
def numberScalar : Number → Scalar
  | .posInt n => .int n.toNat
  | .negInt n => .int n.toInt
  | .float s => .float s

/-- A JSON scalar. -/
def jsonScalar : JsonScalar → Scalar
  | .bool b => .bool b
  | .num n => numberScalar n
  | .str s => .str s

mutual
/-- A JSON document. -/
def jsonDoc : Json → Tree Scalar
  | .seq l => .seq (jsonSeq l)
  | .map m => .map (jsonMap m)
  | .null => .null
  | .leaf s => .leaf (jsonScalar s)
/-- See `jsonDoc`. -/
def jsonSeq : List Json → List (Tree Scalar)
  | [] => []
  | t :: r => jsonDoc t :: jsonSeq r
/-- See `jsonDoc`. -/
def jsonMap : List (Str × Json) → RMap Scalar
  | [] => []
  | (k, t) :: r => (k, jsonDoc t) :: jsonMap r
end

mutual
/-- A YAML document, without its tags; `none` if some key is not a string. -/
def yamlDoc : Yaml → Option (Tree Scalar)
  | .seq l => (yamlSeq l).map .seq
  | .map m => (yamlMap m).map .map
  | .null => some .null
  | .bool b => some (.leaf (.bool b))
  | .num n => some (.leaf (numberScalar n))
  | .str s => some (.leaf (.str s))
  | .tagged _ v => yamlDoc v
/-- See `yamlDoc`. -/
def yamlSeq : List Yaml → Option (List (Tree Scalar))
  | [] => some []
  | t :: r => match yamlDoc t, yamlSeq r with
    | some t, some r => some (t :: r)
    | _, _ => none
/-- See `yamlDoc`. -/
def yamlMap : List (Yaml × Yaml) → Option (RMap Scalar)
  | [] => some []
  | (.str k, t) :: r => match yamlDoc t, yamlMap r with
    | some t, some r => some ((k, t) :: r)
    | _, _ => none
  | _ :: _ => none
end

mutual
/-- A TOML document; the text "null" stands for null. -/
def tomlDoc : Toml → Tree Scalar
  | .array l => .seq (tomlSeq l)
  | .table m => .map (tomlMap m)
  | .str s => if s = c!"null" then .null else .leaf (.str s)
  | .int n => .leaf (.int n.toInt)
  | .float s => .leaf (.float s)
  | .bool b => .leaf (.bool b)
  | .datetime s => .leaf (.date s)
/-- See `tomlDoc`. -/
def tomlSeq : List Toml → List (Tree Scalar)
  | [] => []
  | t :: r => tomlDoc t :: tomlSeq r
/-- See `tomlDoc`. -/
def tomlMap : List (Str × Toml) → RMap Scalar
  | [] => []
  | (k, t) :: r => (k, tomlDoc t) :: tomlMap r
end

/-- The map was read from the document: same keys in the same order, same nesting, same
nulls, and each scalar read as the value it is. -/
def ReadAs (d : RMap Scalar) (m : RMap Value) : Prop :=
  shapeMap m = shapeMap d ∧
  ∀ (n : Nat) (p : List Str) (s : Scalar), (leaves d)[n]? = some (p, s) → ∃ v, (leaves m)[n]? = some (p, v) ∧ Reads s v

/-- The encrypted map was read from the document: as above, with the scalars at plaintext
paths read as values and each of the others a text parsed as an encrypted value. -/
def EncReadAs (C : Cipher) (rx : RegexMatch) (cfg : Option PartialEncryption) (d : RMap Scalar)
    (m : RMap EncLeaf) : Prop :=
  shapeMap m = shapeMap d ∧
  ∀ (n : Nat) (p : List Str) (s : Scalar), (leaves d)[n]? = some (p, s) →
    (Plain rx cfg p → ∃ v, (leaves m)[n]? = some (p, .escaped v) ∧ Reads s v) ∧
    (¬ Plain rx cfg p → ∃ t e, s = .str t ∧ (leaves m)[n]? = some (p, .encrypted e) ∧ EncValue.parse C t = .ok e)

/-- The scalar a value is written as. -/
def valueScalar : Value → Scalar
  | .boolean b => .bool b
  | .integer i => .int i.toInt
  | .float s => .float s
  | .string s => .str s

/-- The scalar a value of an encrypted map is written as. -/
def encScalar (C : Cipher) : EncLeaf → Scalar
  | .encrypted e => .str (encText C e)
  | .escaped v => valueScalar v

/-- The document was written from the map: same keys in the same order, same nesting, same nulls, and
the scalars of the values at their places. -/
def WrittenAs {α : Type} (scalar : α → Scalar) (m : RMap α) (d : RMap Scalar) : Prop :=
  shapeMap d = shapeMap m ∧ leaves d = (leaves m).map fun pv => (pv.1, scalar pv.2)

mutual
/-- A YAML value without tags. -/
def Untagged : Yaml → Prop
  | .seq l => UntaggedSeq l
  | .map m => UntaggedMap m
  | .tagged _ _ => False
  | _ => True
/-- See `Untagged`. -/
def UntaggedSeq : List Yaml → Prop
  | [] => True
  | t :: r => Untagged t ∧ UntaggedSeq r
/-- See `Untagged`. -/
def UntaggedMap : List (Yaml × Yaml) → Prop
  | [] => True
  | (k, t) :: r => Untagged k ∧ Untagged t ∧ UntaggedMap r
end

/-- What files need of a format whose maps can hold the values `rep`: maps convert to the
format and back without change, decrypted and encrypted, with the partial encryption setting
they were encrypted with. -/
structure Format.Lawful (F : Format) (rep : Value → Prop) : Prop where
  /-- conversion of a decrypted map does not panic and is undone by reading -/
  round_trip : ∀ m, Holds rep m → ∃ x, F.ofInternal m = some x ∧ F.toInternal x = .ok m
  /-- the same for encrypted maps -/
  enc_round_trip : ∀ C : Cipher, ',' ∉ C.name → ∀ rx cfg m, EncHolds C rx cfg rep m →
    ∃ x, F.encOfInternal C m = some x ∧ F.encToInternal C rx (Resolved.ofConfig cfg) x = .ok m

end Rops.Spec
