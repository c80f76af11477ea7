import Verif.Spec.Content
import Verif.Model.Format
/-!
# The content of YAML and TOML documents

The documents as trees, so that `SameContent` speaks about them too. When scalars are the
same is stated here for each format.
-/

namespace Rops.Spec

/-- Numbers are the same when they are of the same kind and value; the two float zeros are the
same. -/
def SameNumber (a b : Number) : Prop :=
  a = b ∨ (a = .float c!"0" ∨ a = .float c!"-0") ∧ (b = .float c!"0" ∨ b = .float c!"-0")

/-- JSON and YAML scalars are the same when they are of the same kind and value. -/
def SameScalar : JsonScalar → JsonScalar → Prop
  | .bool a, .bool b => a = b
  | .str a, .str b => a = b
  | .num a, .num b => SameNumber a b
  | _, _ => False

/-- TOML scalars are the same when they are of the same kind and value; the two float zeros
are the same and NaN is not the same as itself. -/
def SameToml : Toml → Toml → Prop
  | .str a, .str b => a = b
  | .int a, .int b => a = b
  | .bool a, .bool b => a = b
  | .datetime a, .datetime b => a = b
  | .float a, .float b => a = b ∧ a ≠ c!"NaN" ∨ (a = c!"0" ∨ a = c!"-0") ∧ (b = c!"0" ∨ b = c!"-0")
  | _, _ => False

mutual
/-- A TOML value as a tree. -/
def tomlContent : Toml → Tree Toml
  | .array l => .seq (tomlContentSeq l)
  | .table m => .map (tomlContentMap m)
  | .str s => .leaf (.str s)
  | .int n => .leaf (.int n)
  | .float s => .leaf (.float s)
  | .bool b => .leaf (.bool b)
  | .datetime s => .leaf (.datetime s)
/-- See `tomlContent`. -/
def tomlContentSeq : List Toml → List (Tree Toml)
  | [] => []
  | t :: r => tomlContent t :: tomlContentSeq r
/-- See `tomlContent`. -/
def tomlContentMap : List (Str × Toml) → RMap Toml
  | [] => []
  | (k, t) :: r => (k, tomlContent t) :: tomlContentMap r
end

/-- A scalar of YAML, or a tag. -/
inductive YamlScalar where
  | scalar (a : JsonScalar)
  | tag (s : Str)

/-- YAML scalars are the same when they are of the same kind and value. -/
def SameYaml : YamlScalar → YamlScalar → Prop
  | .scalar a, .scalar b => SameScalar a b
  | .tag s, .tag t => s = t
  | _, _ => False

mutual
/-- A YAML value is written as the tree; only values whose keys are texts. A tagged value is given as
a sequence of the tag and the value. -/
inductive YamlIs : Yaml → Tree YamlScalar → Prop
  | null : YamlIs .null .null
  | bool b : YamlIs (.bool b) (.leaf (.scalar (.bool b)))
  | num n : YamlIs (.num n) (.leaf (.scalar (.num n)))
  | str s : YamlIs (.str s) (.leaf (.scalar (.str s)))
  | seq {l l'} : YamlSeqIs l l' → YamlIs (.seq l) (.seq l')
  | map {m m'} : YamlMapIs m m' → YamlIs (.map m) (.map m')
  | tagged (s : Str) {v v'} : YamlIs v v' → YamlIs (.tagged s v) (.seq [.leaf (.tag s), v'])
/-- See `YamlIs`. -/
inductive YamlSeqIs : List Yaml → List (Tree YamlScalar) → Prop
  | nil : YamlSeqIs [] []
  | cons {t t' r r'} : YamlIs t t' → YamlSeqIs r r' → YamlSeqIs (t :: r) (t' :: r')
/-- See `YamlIs`. -/
inductive YamlMapIs : List (Yaml × Yaml) → RMap YamlScalar → Prop
  | nil : YamlMapIs [] []
  | cons {t t' r r'} (k : Str) : YamlIs t t' → YamlMapIs r r' → YamlMapIs ((.str k, t) :: r) ((k, t') :: r')
end

mutual
/-- The YAML value without its tags. -/
def untag : Yaml → Yaml
  | .tagged _ v => untag v
  | .seq l => .seq (untagSeq l)
  | .map m => .map (untagMap m)
  | v => v
/-- See `untag`. -/
def untagSeq : List Yaml → List Yaml
  | [] => []
  | t :: r => untag t :: untagSeq r
/-- See `untag`. -/
def untagMap : List (Yaml × Yaml) → List (Yaml × Yaml)
  | [] => []
  | (k, t) :: r => (k, untag t) :: untagMap r
end

end Rops.Spec
