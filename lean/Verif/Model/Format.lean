import Verif.Model.Tree
import Verif.Model.Partial
/-!
# File formats

Models crates/lib/src/file/format/: the value trees of the three formats and their
conversion from and to internal maps. The text syntax of the formats is library code
(`serde_json`, `serde_yaml`, `toml`) and not modelled here.

Input maps of the three libraries are index maps with distinct keys, so inserting their
converted entries into a fresh map appends; the maps are built directly
(`IndexMap.build_eq`).
-/

namespace Rops

/-- `FormatToInternalMapError` (crates/lib/src/file/format/map.rs:20-29). -/
inductive FormatError where
  | nonStringKey
  | integerOutOfRange (n : UInt64)
  | encryptedValue (e : EncParseError)
  | plaintextWhenEncrypted
deriving DecidableEq, Repr

/-- A `serde_json::Number` or `serde_yaml::Number`: both are an enum of a `u64`, a
negative `i64` or a float. Floats are given by their text (see Model/Value.lean). -/
inductive Number where
  | posInt (n : UInt64)
  | negInt (n : Int64)
  | float (s : Str)
deriving DecidableEq, Repr

/-- `Number::as_i64` of an integer (library code). -/
def Number.asI64 : Number → Option Int64
  | .posInt n => if n.toNat < 2 ^ 63 then some (Int64.ofNat n.toNat) else none
  | .negInt n => some n
  | .float _ => none

/-- `impl From<i64> for Number` (library code). -/
def Number.ofI64 (n : Int64) : Number :=
  if 0 ≤ n.toInt then .posInt (UInt64.ofNat n.toInt.toNat) else .negInt n

/-- `helpers::to_internal_number` (json/mod.rs:113-122, yaml/mod.rs:133-142). -/
def Number.toInternal (n : Number) : Except FormatError Value :=
  match n with
  | .float s => .ok (.float s)
  | .posInt u => match Number.asI64 (.posInt u) with
    | some i => .ok (.integer i)
    | none => .error (.integerOutOfRange u)
  | .negInt i => .ok (.integer i)

/-- `f64::is_finite` on the text of a float: Rust prints the others as "inf", "-inf" and
"NaN". -/
def floatFinite (s : Str) : Bool := s ≠ c!"inf" && s ≠ c!"-inf" && s ≠ c!"NaN"

/-- `f64` equality on texts of floats, with NaN equal to itself as in `serde_yaml`
(JSON floats are finite): only the two zeros are equal with different texts. -/
def floatEq (a b : Str) : Bool := a == b || (a == c!"0" || a == c!"-0") && (b == c!"0" || b == c!"-0")

/-- Equality of numbers (library code). -/
def Number.eq : Number → Number → Bool
  | .float a, .float b => floatEq a b
  | a, b => a == b

/-! ## JSON -/

/-- Scalars of `serde_json::Value` other than null. -/
inductive JsonScalar where
  | bool (b : Bool)
  | num (n : Number)
  | str (s : Str)
deriving DecidableEq, Repr

/-- `serde_json::Value`: null, scalars, arrays and objects. An object
(`serde_json::Map` with `preserve_order`) is an index map. -/
abbrev Json := Tree JsonScalar

/-- The leaf cases of `decrypted_to_internal` (json/mod.rs:47-49). -/
def JsonScalar.toInternal : JsonScalar → Except FormatError Value
  | .bool b => .ok (.boolean b)
  | .str s => .ok (.string s)
  | .num n => n.toInternal

/-- `helpers::from_internal_value` (json/mod.rs:124-134); `none` is the panic on infinite
and NaN floats. -/
def JsonScalar.ofInternal : Value → Option JsonScalar
  | .string s => some (.str s)
  | .boolean b => some (.bool b)
  | .integer i => some (.num (.ofI64 i))
  | .float s => if floatFinite s then some (.num (.float s)) else none

/-- The leaf cases of `encrypted_to_internal` (json/mod.rs:75-78,86-93). -/
def JsonScalar.encToInternal (C : Cipher) (escape : Bool) : JsonScalar → Except FormatError EncLeaf
  | .str s => if escape then .ok (.escaped (.string s)) else
    match EncValue.parse C s with
    | .ok e => .ok (.encrypted e)
    | .error e => .error (.encryptedValue e)
  | .bool b => if escape then .ok (.escaped (.boolean b)) else .error .plaintextWhenEncrypted
  | .num n => if escape then
      match n.toInternal with
      | .ok v => .ok (.escaped v)
      | .error e => .error e
    else .error .plaintextWhenEncrypted

/-- The leaf cases of `encrypted_from_internal` (json/mod.rs:102-105). -/
def JsonScalar.encOfInternal (C : Cipher) : EncLeaf → Option JsonScalar
  | .encrypted e => some (.str (e.toText C))
  | .escaped v => JsonScalar.ofInternal v

mutual
/-- `FileFormatValueAdapter::decrypted_to_internal for JsonValue` (json/mod.rs:44-58). -/
def Json.toTree : Json → Except FormatError (Tree Value)
  | .map m => match Json.toMap m with
    | .ok m => .ok (.map m)
    | .error e => .error e
  | .seq l => match Json.toSeq l with
    | .ok l => .ok (.seq l)
    | .error e => .error e
  | .null => .ok .null
  | .leaf s => match s.toInternal with
    | .ok v => .ok (.leaf v)
    | .error e => .error e
/-- The elements of an array (json/mod.rs:50-55). -/
def Json.toSeq : List Json → Except FormatError (List (Tree Value))
  | [] => .ok []
  | t :: r => match Json.toTree t with
    | .ok t => match Json.toSeq r with
      | .ok r => .ok (t :: r)
      | .error e => .error e
    | .error e => .error e
/-- `FileFormatMapAdapter::decrypted_to_internal` (format/adapters.rs:49-58). -/
def Json.toMap : List (Str × Json) → Except FormatError (RMap Value)
  | [] => .ok []
  | (k, t) :: r => match Json.toTree t with
    | .ok t => match Json.toMap r with
      | .ok r => .ok ((k, t) :: r)
      | .error e => .error e
    | .error e => .error e
end

mutual
/-- A tree with its leaves converted, `none` if a conversion panics: the common shape of
`decrypted_from_internal` and `encrypted_from_internal` (json/mod.rs:60-67,97-107). -/
def Tree.mapM {α β : Type} (f : α → Option β) : Tree α → Option (Tree β)
  | .seq l => match Tree.mapSeqM f l with
    | some l => some (.seq l)
    | none => none
  | .map m => match Tree.mapMapM f m with
    | some m => some (.map m)
    | none => none
  | .null => some .null
  | .leaf a => match f a with
    | some b => some (.leaf b)
    | none => none
/-- See `Tree.mapM`. -/
def Tree.mapSeqM {α β : Type} (f : α → Option β) : List (Tree α) → Option (List (Tree β))
  | [] => some []
  | t :: r => match Tree.mapM f t with
    | some t => match Tree.mapSeqM f r with
      | some r => some (t :: r)
      | none => none
    | none => none
/-- See `Tree.mapM`; for a map this is `decrypted_from_internal` and
`encrypted_from_internal` of adapters.rs:60-68,94-102. -/
def Tree.mapMapM {α β : Type} (f : α → Option β) : RMap α → Option (RMap β)
  | [] => some []
  | (k, t) :: r => match Tree.mapM f t with
    | some t => match Tree.mapMapM f r with
      | some r => some ((k, t) :: r)
      | none => none
    | none => none
end

mutual
/-- `FileFormatValueAdapter::encrypted_to_internal for JsonValue` (json/mod.rs:69-95). -/
def Json.encToTree (C : Cipher) (rx : RegexMatch) (res : Resolved) : Json → Except FormatError (Tree EncLeaf)
  | .map m => match Json.encToMap C rx res m with
    | .ok m => .ok (.map m)
    | .error e => .error e
  | .seq l => match Json.encToSeq C rx res l with
    | .ok l => .ok (.seq l)
    | .error e => .error e
  | .null => .ok .null
  | .leaf s => match s.encToInternal C res.escape with
    | .ok v => .ok (.leaf v)
    | .error e => .error e
/-- The elements of an array (json/mod.rs:79-84). -/
def Json.encToSeq (C : Cipher) (rx : RegexMatch) (res : Resolved) :
    List Json → Except FormatError (List (Tree EncLeaf))
  | [] => .ok []
  | t :: r => match Json.encToTree C rx res t with
    | .ok t => match Json.encToSeq C rx res r with
      | .ok r => .ok (t :: r)
      | .error e => .error e
    | .error e => .error e
/-- `FileFormatMapAdapter::encrypted_to_internal` (adapters.rs:70-92). -/
def Json.encToMap (C : Cipher) (rx : RegexMatch) (res : Resolved) :
    List (Str × Json) → Except FormatError (RMap EncLeaf)
  | [] => .ok []
  | (k, t) :: r => match Json.encToTree C rx (res.step rx k) t with
    | .ok t => match Json.encToMap C rx res r with
      | .ok r => .ok ((k, t) :: r)
      | .error e => .error e
    | .error e => .error e
end

/-- Equality of JSON scalars. -/
def JsonScalar.eq : JsonScalar → JsonScalar → Bool
  | .num a, .num b => Number.eq a b
  | a, b => a == b

mutual
/-- Equality of values with maps compared as `IndexMap`s do: same length and every entry of
the one found in the other, in any order (library code). -/
def Tree.eqBy {α : Type} (f : α → α → Bool) : Tree α → Tree α → Bool
  | .seq a, .seq b => Tree.eqSeq f a b
  | .map a, .map b => a.length == b.length && Tree.subMap f a b
  | .null, .null => true
  | .leaf a, .leaf b => f a b
  | _, _ => false
/-- See `Tree.eqBy`. -/
def Tree.eqSeq {α : Type} (f : α → α → Bool) : List (Tree α) → List (Tree α) → Bool
  | [], [] => true
  | a :: r, b :: r' => Tree.eqBy f a b && Tree.eqSeq f r r'
  | _, _ => false
/-- Every entry of the first map is in the second. -/
def Tree.subMap {α : Type} (f : α → α → Bool) : RMap α → RMap α → Bool
  | [], _ => true
  | (k, a) :: r, m => (match IndexMap.get m k with
    | some b => Tree.eqBy f a b
    | none => false) && Tree.subMap f r m
end

/-- Equality of maps; see `Tree.eqBy`. -/
def Tree.eqMap {α : Type} (f : α → α → Bool) (a b : RMap α) : Bool :=
  a.length == b.length && Tree.subMap f a b

/-! ## YAML -/

/-- `serde_yaml::Value` (library type). A mapping is an index map whose keys are values. -/
inductive Yaml where
  | null
  | bool (b : Bool)
  | num (n : Number)
  | str (s : Str)
  | seq (l : List Yaml)
  | map (m : List (Yaml × Yaml))
  | tagged (tag : Str) (v : Yaml)

/-- `FileFormatKeyAdapter::validate for YamlValue` (yaml/mod.rs:44-51). -/
def Yaml.validateKey : Yaml → Except FormatError Str
  | .str s => .ok s
  | _ => .error .nonStringKey

mutual
/-- `decrypted_to_internal for YamlValue` (yaml/mod.rs:59-77): tags are dropped. -/
def Yaml.toTree : Yaml → Except FormatError (Tree Value)
  | .tagged _ v => Yaml.toTree v
  | .map m => match Yaml.toMap m with
    | .ok m => .ok (.map m)
    | .error e => .error e
  | .bool b => .ok (.leaf (.boolean b))
  | .str s => .ok (.leaf (.string s))
  | .num n => match n.toInternal with
    | .ok v => .ok (.leaf v)
    | .error e => .error e
  | .seq l => match Yaml.toSeq l with
    | .ok l => .ok (.seq l)
    | .error e => .error e
  | .null => .ok .null
/-- The elements of a sequence (yaml/mod.rs:69-74). -/
def Yaml.toSeq : List Yaml → Except FormatError (List (Tree Value))
  | [] => .ok []
  | t :: r => match Yaml.toTree t with
    | .ok t => match Yaml.toSeq r with
      | .ok r => .ok (t :: r)
      | .error e => .error e
    | .error e => .error e
/-- `FileFormatMapAdapter::decrypted_to_internal` (adapters.rs:49-58). -/
def Yaml.toMap : List (Yaml × Yaml) → Except FormatError (RMap Value)
  | [] => .ok []
  | (k, t) :: r => match Yaml.validateKey k with
    | .error e => .error e
    | .ok k => match Yaml.toTree t with
      | .ok t => match Yaml.toMap r with
        | .ok r => .ok ((k, t) :: r)
        | .error e => .error e
      | .error e => .error e
end

/-- `helpers::from_internal_value` (yaml/mod.rs:144-151). -/
def Yaml.ofValue : Value → Yaml
  | .string s => .str s
  | .boolean b => .bool b
  | .integer i => .num (.ofI64 i)
  | .float s => .num (.float s)

/-- The leaf cases of `encrypted_from_internal` (yaml/mod.rs:122-125). -/
def Yaml.ofEncLeaf (C : Cipher) : EncLeaf → Yaml
  | .encrypted e => .str (e.toText C)
  | .escaped v => Yaml.ofValue v

mutual
/-- `decrypted_from_internal` and `encrypted_from_internal for YamlValue`
(yaml/mod.rs:79-86,117-127) with the conversion of leaves as argument. -/
def Yaml.ofTree {α : Type} (f : α → Yaml) : Tree α → Yaml
  | .seq l => .seq (Yaml.ofSeq f l)
  | .map m => .map (Yaml.ofMap f m)
  | .null => .null
  | .leaf a => f a
/-- See `Yaml.ofTree`. -/
def Yaml.ofSeq {α : Type} (f : α → Yaml) : List (Tree α) → List Yaml
  | [] => []
  | t :: r => Yaml.ofTree f t :: Yaml.ofSeq f r
/-- adapters.rs:60-68,94-102. -/
def Yaml.ofMap {α : Type} (f : α → Yaml) : RMap α → List (Yaml × Yaml)
  | [] => []
  | (k, t) :: r => (.str k, Yaml.ofTree f t) :: Yaml.ofMap f r
end

mutual
/-- `encrypted_to_internal for YamlValue` (yaml/mod.rs:88-115). -/
def Yaml.encToTree (C : Cipher) (rx : RegexMatch) (res : Resolved) : Yaml → Except FormatError (Tree EncLeaf)
  | .tagged _ v => Yaml.encToTree C rx res v
  | .map m => match Yaml.encToMap C rx res m with
    | .ok m => .ok (.map m)
    | .error e => .error e
  | .str s => if res.escape then .ok (.leaf (.escaped (.string s))) else
    match EncValue.parse C s with
    | .ok e => .ok (.leaf (.encrypted e))
    | .error e => .error (.encryptedValue e)
  | .seq l => match Yaml.encToSeq C rx res l with
    | .ok l => .ok (.seq l)
    | .error e => .error e
  | .null => .ok .null
  | .bool b => if res.escape then .ok (.leaf (.escaped (.boolean b))) else .error .plaintextWhenEncrypted
  | .num n => if res.escape then
      match n.toInternal with
      | .ok v => .ok (.leaf (.escaped v))
      | .error e => .error e
    else .error .plaintextWhenEncrypted
/-- The elements of a sequence (yaml/mod.rs:99-104). -/
def Yaml.encToSeq (C : Cipher) (rx : RegexMatch) (res : Resolved) :
    List Yaml → Except FormatError (List (Tree EncLeaf))
  | [] => .ok []
  | t :: r => match Yaml.encToTree C rx res t with
    | .ok t => match Yaml.encToSeq C rx res r with
      | .ok r => .ok (t :: r)
      | .error e => .error e
    | .error e => .error e
/-- `FileFormatMapAdapter::encrypted_to_internal` (adapters.rs:70-92). -/
def Yaml.encToMap (C : Cipher) (rx : RegexMatch) (res : Resolved) :
    List (Yaml × Yaml) → Except FormatError (RMap EncLeaf)
  | [] => .ok []
  | (k, t) :: r => match Yaml.validateKey k with
    | .error e => .error e
    | .ok k => match Yaml.encToTree C rx (res.step rx k) t with
      | .ok t => match Yaml.encToMap C rx res r with
        | .ok r => .ok ((k, t) :: r)
        | .error e => .error e
      | .error e => .error e
end

/-! ## TOML -/

/-- `toml::Value` (library type). A table (`preserve_order`) is an index map; a datetime is
given by its text. -/
inductive Toml where
  | str (s : Str)
  | int (n : Int64)
  | float (s : Str)
  | bool (b : Bool)
  | datetime (text : Str)
  | array (l : List Toml)
  | table (m : List (Str × Toml))

/-- The text that stands for null (toml/mod.rs:54,73,91,120). -/
def tomlNull : Str := c!"null"

mutual
/-- `decrypted_to_internal for TomlValue` (toml/mod.rs:49-66). -/
def Toml.toTree : Toml → Except FormatError (Tree Value)
  | .table m => match Toml.toMap m with
    | .ok m => .ok (.map m)
    | .error e => .error e
  | .bool b => .ok (.leaf (.boolean b))
  | .str s => if s = tomlNull then .ok .null else .ok (.leaf (.string s))
  | .int i => .ok (.leaf (.integer i))
  | .float s => .ok (.leaf (.float s))
  | .array l => match Toml.toSeq l with
    | .ok l => .ok (.seq l)
    | .error e => .error e
  | .datetime s => .ok (.leaf (.string s))
/-- The elements of an array (toml/mod.rs:58-63). -/
def Toml.toSeq : List Toml → Except FormatError (List (Tree Value))
  | [] => .ok []
  | t :: r => match Toml.toTree t with
    | .ok t => match Toml.toSeq r with
      | .ok r => .ok (t :: r)
      | .error e => .error e
    | .error e => .error e
/-- `FileFormatMapAdapter::decrypted_to_internal` (adapters.rs:49-58). -/
def Toml.toMap : List (Str × Toml) → Except FormatError (RMap Value)
  | [] => .ok []
  | (k, t) :: r => match Toml.toTree t with
    | .ok t => match Toml.toMap r with
      | .ok r => .ok ((k, t) :: r)
      | .error e => .error e
    | .error e => .error e
end

/-- `helpers::from_internal_value` (toml/mod.rs:132-139). -/
def Toml.ofValue : Value → Toml
  | .string s => .str s
  | .boolean b => .bool b
  | .integer i => .int i
  | .float s => .float s

/-- The leaf cases of `encrypted_from_internal` (toml/mod.rs:121-124). -/
def Toml.ofEncLeaf (C : Cipher) : EncLeaf → Toml
  | .encrypted e => .str (e.toText C)
  | .escaped v => Toml.ofValue v

mutual
/-- `decrypted_from_internal` and `encrypted_from_internal for TomlValue`
(toml/mod.rs:68-76,115-126) with the conversion of leaves as argument. -/
def Toml.ofTree {α : Type} (f : α → Toml) : Tree α → Toml
  | .seq l => .array (Toml.ofSeq f l)
  | .map m => .table (Toml.ofMap f m)
  | .null => .str tomlNull
  | .leaf a => f a
/-- See `Toml.ofTree`. -/
def Toml.ofSeq {α : Type} (f : α → Toml) : List (Tree α) → List Toml
  | [] => []
  | t :: r => Toml.ofTree f t :: Toml.ofSeq f r
/-- adapters.rs:60-68,94-102. -/
def Toml.ofMap {α : Type} (f : α → Toml) : RMap α → List (Str × Toml)
  | [] => []
  | (k, t) :: r => (k, Toml.ofTree f t) :: Toml.ofMap f r
end

mutual
/-- `encrypted_to_internal for TomlValue` (toml/mod.rs:78-113). -/
def Toml.encToTree (C : Cipher) (rx : RegexMatch) (res : Resolved) : Toml → Except FormatError (Tree EncLeaf)
  | .table m => match Toml.encToMap C rx res m with
    | .ok m => .ok (.map m)
    | .error e => .error e
  | .array l => match Toml.encToSeq C rx res l with
    | .ok l => .ok (.seq l)
    | .error e => .error e
  | .str s => if s = tomlNull then .ok .null
    else if res.escape then .ok (.leaf (.escaped (.string s)))
    else match EncValue.parse C s with
      | .ok e => .ok (.leaf (.encrypted e))
      | .error e => .error (.encryptedValue e)
  | .bool b => if res.escape then .ok (.leaf (.escaped (.boolean b))) else .error .plaintextWhenEncrypted
  | .int i => if res.escape then .ok (.leaf (.escaped (.integer i))) else .error .plaintextWhenEncrypted
  | .float s => if res.escape then .ok (.leaf (.escaped (.float s))) else .error .plaintextWhenEncrypted
  | .datetime s => if res.escape then .ok (.leaf (.escaped (.string s))) else .error .plaintextWhenEncrypted
/-- The elements of an array (toml/mod.rs:84-89). -/
def Toml.encToSeq (C : Cipher) (rx : RegexMatch) (res : Resolved) :
    List Toml → Except FormatError (List (Tree EncLeaf))
  | [] => .ok []
  | t :: r => match Toml.encToTree C rx res t with
    | .ok t => match Toml.encToSeq C rx res r with
      | .ok r => .ok (t :: r)
      | .error e => .error e
    | .error e => .error e
/-- `FileFormatMapAdapter::encrypted_to_internal` (adapters.rs:70-92). -/
def Toml.encToMap (C : Cipher) (rx : RegexMatch) (res : Resolved) :
    List (Str × Toml) → Except FormatError (RMap EncLeaf)
  | [] => .ok []
  | (k, t) :: r => match Toml.encToTree C rx (res.step rx k) t with
    | .ok t => match Toml.encToMap C rx res r with
      | .ok r => .ok ((k, t) :: r)
      | .error e => .error e
    | .error e => .error e
end

/-! ## Equality of YAML and TOML values -/

mutual
/-- Structural equality, used for lookups of mapping keys (`Hash + Eq`). Library code. -/
def Yaml.eq : Yaml → Yaml → Bool
  | .null, .null => true
  | .bool a, .bool b => a == b
  | .num a, .num b => Number.eq a b
  | .str a, .str b => a == b
  | .seq a, .seq b => Yaml.eqSeq a b
  | .map a, .map b => a.length == b.length && Yaml.subMap a b
  | .tagged s a, .tagged t b => s == t && Yaml.eq a b
  | _, _ => false
/-- See `Yaml.eq`. -/
def Yaml.eqSeq : List Yaml → List Yaml → Bool
  | [], [] => true
  | a :: r, b :: r' => Yaml.eq a b && Yaml.eqSeq r r'
  | _, _ => false
/-- Every entry of the first mapping is in the second (`IndexMap` equality, any order). -/
def Yaml.subMap : List (Yaml × Yaml) → List (Yaml × Yaml) → Bool
  | [], _ => true
  | (k, a) :: r, m => Yaml.has k a m && Yaml.subMap r m
/-- The mapping has an entry for the key, with an equal value. Keys are distinct, so
finding any equal entry is the same as comparing with the looked up one. -/
def Yaml.has (k a : Yaml) : List (Yaml × Yaml) → Bool
  | [] => false
  | (k', b) :: r => (Yaml.eq k k' && Yaml.eq a b) || Yaml.has k a r
end

mutual
/-- `PartialEq for toml::Value` (derived; library code): NaN differs from itself. -/
def Toml.eq : Toml → Toml → Bool
  | .str a, .str b => a == b
  | .int a, .int b => a == b
  | .float a, .float b => a != c!"NaN" && floatEq a b
  | .bool a, .bool b => a == b
  | .datetime a, .datetime b => a == b
  | .array a, .array b => Toml.eqSeq a b
  | .table a, .table b => a.length == b.length && Toml.subMap a b
  | _, _ => false
/-- See `Toml.eq`. -/
def Toml.eqSeq : List Toml → List Toml → Bool
  | [], [] => true
  | a :: r, b :: r' => Toml.eq a b && Toml.eqSeq r r'
  | _, _ => false
/-- Every entry of the first table is in the second. -/
def Toml.subMap : List (Str × Toml) → List (Str × Toml) → Bool
  | [], _ => true
  | (k, a) :: r, m => (match IndexMap.get m k with
    | some b => Toml.eq a b
    | none => false) && Toml.subMap r m
end

/-! ## The format interface -/

/-- `FileFormat` with its map adapter (format/core.rs, adapters.rs:38-103) as used by files:
`none` is a panic. -/
structure Format where
  /-- `FileFormat::Map` -/
  Map : Type
  /-- `decrypted_to_internal` -/
  toInternal : Map → Except FormatError (RMap Value)
  /-- `decrypted_from_internal` -/
  ofInternal : RMap Value → Option Map
  /-- `encrypted_to_internal` -/
  encToInternal : Cipher → RegexMatch → Resolved → Map → Except FormatError (RMap EncLeaf)
  /-- `encrypted_from_internal` -/
  encOfInternal : Cipher → RMap EncLeaf → Option Map
  /-- `PartialEq` -/
  eq : Map → Map → Bool

/-- `JsonFileFormat` (json/mod.rs:15-41). -/
def Format.json : Format where
  Map := List (Str × Json)
  toInternal := Json.toMap
  ofInternal := Tree.mapMapM JsonScalar.ofInternal
  encToInternal := Json.encToMap
  encOfInternal C := Tree.mapMapM (JsonScalar.encOfInternal C)
  eq := Tree.eqMap JsonScalar.eq

/-- `YamlFileFormat` (yaml/mod.rs:15-41). -/
def Format.yaml : Format where
  Map := List (Yaml × Yaml)
  toInternal := Yaml.toMap
  ofInternal m := some (Yaml.ofMap Yaml.ofValue m)
  encToInternal := Yaml.encToMap
  encOfInternal C m := some (Yaml.ofMap (Yaml.ofEncLeaf C) m)
  eq a b := a.length == b.length && Yaml.subMap a b

/-- `TomlFileFormat` (toml/mod.rs:20-46). -/
def Format.toml : Format where
  Map := List (Str × Toml)
  toInternal := Toml.toMap
  ofInternal m := some (Toml.ofMap Toml.ofValue m)
  encToInternal := Toml.encToMap
  encOfInternal C m := some (Toml.ofMap (Toml.ofEncLeaf C) m)
  eq a b := a.length == b.length && Toml.subMap a b

end Rops
