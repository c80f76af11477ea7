import Verif.Model.TomlText
/-!
# The scalars of YAML

What `serde_yaml` (0.9.34 in Cargo.lock) does with scalars for `serde_yaml::to_string` and
`serde_yaml::from_str` (crates/lib/src/file/format/yaml/mod.rs:22-28): which value a plain scalar
stands for (`de.rs`), and which texts must not be written as plain scalars (`ser.rs`). This is
library code whose source is not in /repo; it is written down from its documented behaviour. The
layout of YAML documents, that is `libyaml`, is a parameter (`YamlLayout`).

Simplifications: the tags of the core schema ("!!str", "!!int") are left to the reader of the
layout; of repeated keys only those that are texts are refused (keys that are no texts are refused
later, yaml/mod.rs:44-51).
-/

namespace Rops

/-! ## Reading -/

/-- Digits to a base, at least one. -/
def radixDigits (base : Nat) (s : Str) : Option Nat :=
  if s ≠ [] ∧ s.all (fun c => (hexVal c).any (· < base)) then some (tomlNat base s) else none

/-- `from_str_radix` of an unsigned integer with so many bits. -/
def unsignedRadix (base bits : Nat) (s : Str) : Option Nat :=
  (match s with
    | '+' :: r => radixDigits base r
    | _ => radixDigits base s).bind fun n => if n < 2 ^ bits then some n else none

/-- `from_str_radix` of a signed integer with so many bits. -/
def signedRadix (base bits : Nat) (s : Str) : Option Int :=
  match s with
  | '-' :: r => (radixDigits base r).bind fun n => if n ≤ 2 ^ (bits - 1) then some (-(n : Int)) else none
  | '+' :: r => (radixDigits base r).bind fun n => if n < 2 ^ (bits - 1) then some (n : Int) else none
  | _ => (radixDigits base s).bind fun n => if n < 2 ^ (bits - 1) then some (n : Int) else none

/-- Whether a sign is first. -/
def signFirst : Str → Bool
  | c :: _ => c == '+' || c == '-'
  | [] => false

/-- The text after a "+", if it is first. -/
def stripPlus : Str → Str
  | '+' :: r => r
  | s => s

/-- `digits_but_not_number`: digits with a zero before others. -/
def digitsNotNumber (s : Str) : Bool :=
  match (match s with
    | c :: r => if c = '-' ∨ c = '+' then r else s
    | [] => []) with
  | '0' :: c :: r => (c :: r).all Char.isDigit
  | _ => false

/-- The beginning of `parse_unsigned_int`, after a "+": an integer to another base than ten. `none` if the next
way is to be tried, `some none` if the text is refused. -/
def unsignedPrefixed (bits : Nat) : Str → Option (Option Nat)
  | '0' :: c :: r =>
    if c = 'x' ∨ c = 'o' ∨ c = 'b' then
      if signFirst r then some none
      else (unsignedRadix (if c = 'x' then 16 else if c = 'o' then 8 else 2) bits r).map some
    else none
  | _ => none

/-- `parse_unsigned_int`. -/
def yamlUnsigned (bits : Nat) (s : Str) : Option Nat :=
  (unsignedPrefixed bits (stripPlus s)).getD
    (if signFirst (stripPlus s) || digitsNotNumber s then none else unsignedRadix 10 bits (stripPlus s))

/-- The beginning of `parse_negative_int`. -/
def negativePrefixed (bits : Nat) : Str → Option Int
  | '-' :: '0' :: c :: r =>
    if c = 'x' ∨ c = 'o' ∨ c = 'b' then signedRadix (if c = 'x' then 16 else if c = 'o' then 8 else 2) bits ('-' :: r)
    else none
  | _ => none

/-- `parse_negative_int`. -/
def yamlNegative (bits : Nat) (s : Str) : Option Int :=
  (negativePrefixed bits s).or (if digitsNotNumber s then none else signedRadix 10 bits s)

/-- A float that is finite. -/
def finiteFloat : Option F64 → Option F64
  | some (.finite n v) => some (.finite n v)
  | _ => none

/-- `parse_f64`. -/
def yamlReadFloat (s : Str) : Option F64 :=
  if stripPlus s ≠ s ∧ signFirst (stripPlus s) then none
  else if stripPlus s = c!".inf" ∨ stripPlus s = c!".Inf" ∨ stripPlus s = c!".INF" then some (.infinite false)
  else if s = c!"-.inf" ∨ s = c!"-.Inf" ∨ s = c!"-.INF" then some (.infinite true)
  else if s = c!".nan" ∨ s = c!".NaN" ∨ s = c!".NAN" then some .nan
  else finiteFloat (F64.parse (stripPlus s))

/-- What a scalar is taken for. -/
inductive YamlScalar where
  | null
  | bool (b : Bool)
  | unsigned (n : Nat)
  | negative (n : Int)
  | wide
  | float (f : F64)
  | text
deriving DecidableEq

/-- `visit_int`: of 64 bits, or of 128. -/
def yamlReadInt (s : Str) : Option YamlScalar :=
  match yamlUnsigned 64 s with
  | some n => some (.unsigned n)
  | none => match yamlNegative 64 s with
    | some n => some (.negative n)
    | none => if (yamlUnsigned 128 s).isSome ∨ (yamlNegative 128 s).isSome then some .wide else none

/-- `visit_untagged_scalar`. -/
def yamlVisit (s : Str) : YamlScalar :=
  if s = [] ∨ s = c!"null" ∨ s = c!"Null" ∨ s = c!"NULL" ∨ s = c!"~" then .null
  else if s = c!"true" ∨ s = c!"True" ∨ s = c!"TRUE" then .bool true
  else if s = c!"false" ∨ s = c!"False" ∨ s = c!"FALSE" then .bool false
  else match yamlReadInt s with
    | some v => v
    | none => if digitsNotNumber s then .text else match yamlReadFloat s with
      | some f => .float f
      | none => .text

/-- The value of a plain scalar (`ValueVisitor`): it knows no integers of 128 bits, and one that is
not negative is a `u64` (`impl From<i64> for Number`). -/
def yamlPlain (s : Str) : Option Yaml :=
  match yamlVisit s with
  | .null => some .null
  | .bool b => some (.bool b)
  | .unsigned n => some (.num (.posInt (.ofNat n)))
  | .negative n => some (.num (if n < 0 then .negInt (.ofInt n) else .posInt (.ofNat n.toNat)))
  | .wide => none
  | .float f => some (.num (.float f.show))
  | .text => some (.str s)

/-! ## Writing -/

/-- How a text is written (`ScalarStyle`): as the layout likes, or quoted, or line by line. -/
inductive YamlStyle where
  | any
  | single
  | literal
deriving DecidableEq

/-- The truth values of YAML 1.1. -/
def yamlOldBools : List Str :=
  [c!"y", c!"Y", c!"yes", c!"Yes", c!"YES", c!"n", c!"N", c!"no", c!"No", c!"NO", c!"on", c!"On", c!"ON", c!"off", c!"Off", c!"OFF",
    c!"true", c!"True", c!"TRUE", c!"false", c!"False", c!"FALSE"]

/-- `serialize_str`. -/
def yamlStyle (s : Str) : YamlStyle :=
  if s ∈ yamlOldBools then .single
  else if '\n' ∈ s then .literal
  else match yamlVisit s with
    | .text => if digitsNotNumber s then .single else .any
    | _ => .single

/-- `serialize_f64`. -/
def yamlFloat (f : Str) : Str :=
  match F64.parse f with
  | some (.finite n v) => F64.ryu n v
  | some (.infinite false) => c!".inf"
  | some (.infinite true) => c!"-.inf"
  | _ => c!".nan"

/-- `impl Serialize for Number`. -/
def yamlNumber : Number → Str
  | .posInt n => Nat.toDigits 10 n.toNat
  | .negInt n => showInt n
  | .float f => yamlFloat f

/-! ## Documents -/

/-- A tree of scalars as it is laid out: plain scalars, quoted ones, and ones that may be either. -/
inductive YamlNode where
  | plain (s : Str)
  | free (s : Str)
  | quoted (s : Str)
  | seq (l : List YamlNode)
  | map (l : List (YamlNode × YamlNode))
  | tagged (tag : Str) (n : YamlNode)

/-- The layout of YAML documents (`libyaml`). -/
structure YamlLayout where
  write : List (YamlNode × YamlNode) → Str
  read : Str → Option (List (YamlNode × YamlNode))

/-- A text as it is laid out. -/
def yamlTextNode (s : Str) : YamlNode := if yamlStyle s = .any then .free s else .quoted s

mutual
/-- `impl Serialize for Value`. -/
def Yaml.node : Yaml → YamlNode
  | .null => .plain c!"null"
  | .bool b => .plain (if b then c!"true" else c!"false")
  | .num n => .plain (yamlNumber n)
  | .str s => yamlTextNode s
  | .seq l => .seq (Yaml.nodes l)
  | .map m => .map (Yaml.entryNodes m)
  | .tagged t v => .tagged t v.node
/-- See `Yaml.node`. -/
def Yaml.nodes : List Yaml → List YamlNode
  | [] => []
  | v :: r => v.node :: Yaml.nodes r
/-- See `Yaml.node`. -/
def Yaml.entryNodes : List (Yaml × Yaml) → List (YamlNode × YamlNode)
  | [] => []
  | (k, v) :: r => (k.node, v.node) :: Yaml.entryNodes r
end

/-- The keys that are texts. -/
def yamlTextKeys (m : List (Yaml × Yaml)) : List Str := m.filterMap fun e => match e.1 with
  | .str s => some s
  | _ => none

/-- A map without repeated keys. -/
def yamlDistinct (m : List (Yaml × Yaml)) : Option (List (Yaml × Yaml)) := if (yamlTextKeys m).Nodup then some m else none

mutual
/-- `impl Deserialize for Value`. -/
def YamlNode.value : YamlNode → Option Yaml
  | .plain s => yamlPlain s
  | .free s => yamlPlain s
  | .quoted s => some (.str s)
  | .seq l => (YamlNode.values l).map .seq
  | .map m => ((YamlNode.entries m).bind yamlDistinct).map .map
  | .tagged t n => n.value.map (.tagged t)
/-- See `YamlNode.value`. -/
def YamlNode.values : List YamlNode → Option (List Yaml)
  | [] => some []
  | n :: r => n.value.bind fun v => (YamlNode.values r).map (v :: ·)
/-- See `YamlNode.value`. -/
def YamlNode.entries : List (YamlNode × YamlNode) → Option (List (Yaml × Yaml))
  | [] => some []
  | (k, n) :: r => k.value.bind fun a => n.value.bind fun v => (YamlNode.entries r).map ((a, v) :: ·)
end

/-- The syntax of YAML. -/
def YamlLayout.ops (L : YamlLayout) : TextOps .yaml where
  render m := L.write (Yaml.entryNodes m)
  parse s := ((L.read s).bind YamlNode.entries).bind yamlDistinct

end Rops
