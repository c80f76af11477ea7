import Verif.Model.Tree
import Verif.Model.Partial
import Verif.Model.Mac
import Verif.Spec.Encoding
/-!
# Specification vocabulary for maps

A map is described by its shape (everything but the leaf values) and the list of its
leaves in document order, each with the list of keys leading to it.
-/

namespace Rops.Spec

mutual
/-- A tree with its leaf values forgotten: keys, key order, nesting, nulls and sequence
lengths are kept. -/
def shape {α : Type} : Tree α → Tree Unit
  | .seq l => .seq (shapeSeq l)
  | .map m => .map (shapeMap m)
  | .null => .null
  | .leaf _ => .leaf ()
/-- See `shape`. -/
def shapeSeq {α : Type} : List (Tree α) → List (Tree Unit)
  | [] => []
  | t :: r => shape t :: shapeSeq r
/-- See `shape`. -/
def shapeMap {α : Type} : RMap α → RMap Unit
  | [] => []
  | (k, t) :: r => (k, shape t) :: shapeMap r
end

mutual
/-- The leaves in document order, each with the keys leading to it (`path` first). -/
def leavesAt {α : Type} (path : List Str) : Tree α → List (List Str × α)
  | .seq l => leavesSeq path l
  | .map m => leavesMap path m
  | .null => []
  | .leaf a => [(path, a)]
/-- See `leavesAt`; positions in a sequence are not part of the path. -/
def leavesSeq {α : Type} (path : List Str) : List (Tree α) → List (List Str × α)
  | [] => []
  | t :: r => leavesAt path t ++ leavesSeq path r
/-- See `leavesAt`. -/
def leavesMap {α : Type} (path : List Str) : RMap α → List (List Str × α)
  | [] => []
  | (k, t) :: r => leavesAt (path ++ [k]) t ++ leavesMap path r
end

/-- The leaves of a map. -/
def leaves {α : Type} (m : RMap α) : List (List Str × α) := leavesMap [] m

/-- A key matches a partial encryption setting. -/
def Matches (rx : RegexMatch) : PartialEncryption → Str → Prop
  | .encryptedSuffix s, k | .unencryptedSuffix s, k => s <:+ k
  | .encryptedRegex r, k | .unencryptedRegex r, k => rx r k = true

/-- A value with these keys on its path is to be stored in plaintext: never without a
setting; with an `encrypted_*` setting when no key matches; with an `unencrypted_*` setting
when some key matches. -/
def Plain (rx : RegexMatch) (cfg : Option PartialEncryption) (keys : List Str) : Prop :=
  match cfg with
  | none => False
  | some (.encryptedSuffix s) => ∀ k ∈ keys, ¬ Matches rx (.encryptedSuffix s) k
  | some (.encryptedRegex r) => ∀ k ∈ keys, ¬ Matches rx (.encryptedRegex r) k
  | some (.unencryptedSuffix s) => ∃ k ∈ keys, Matches rx (.unencryptedSuffix s) k
  | some (.unencryptedRegex r) => ∃ k ∈ keys, Matches rx (.unencryptedRegex r) k

instance (rx : RegexMatch) (cfg : PartialEncryption) (k : Str) : Decidable (Matches rx cfg k) := by
  cases cfg <;> simp only [Matches] <;> infer_instance

instance (rx : RegexMatch) (cfg : Option PartialEncryption) (keys : List Str) :
    Decidable (Plain rx cfg keys) := by
  rcases cfg with _ | (s | r | s | r) <;> simp only [Plain] <;> infer_instance

/-- No key on the path of a leaf contains a ':'. -/
def NoColon {α : Type} (m : RMap α) : Prop := ∀ pv ∈ leaves m, ∀ k ∈ pv.1, ':' ∉ k

/-- The part of a key after its last ':', the whole key if it has none. -/
def lastPart (k : Str) : Str := (k.reverse.takeWhile (· ≠ ':')).reverse

/-- What is needed of the keys of a map for encrypting and reading it alike under a setting (see C08): no key
contains a ':', or the setting is by a suffix which contains none. -/
def KeysAgree {α : Type} (cfg : Option PartialEncryption) (m : RMap α) : Prop :=
  NoColon m ∨ ∃ s, ':' ∉ s ∧ (cfg = some (.encryptedSuffix s) ∨ cfg = some (.unencryptedSuffix s))

/-- The text form of a list of keys used as associated data: each key followed by ':'. -/
def pathText (keys : List Str) : Str := keys.flatMap fun k => k ++ [':']

/-- The bytes that stand for a value, for encryption and for the MAC: texts in UTF-8, "True" and
"False", decimal integers, the text of a float. -/
def plainBytes : Value → Bytes
  | .string s => utf8 s
  | .boolean true => utf8 c!"True"
  | .boolean false => utf8 c!"False"
  | .integer i => utf8 (toString i.toInt).toList
  | .float t => utf8 t

/-- The values of the map are values the type `RopsValue` can hold. -/
def Canonical (fl : FloatOps) (m : RMap Value) : Prop := ∀ pv ∈ leaves m, pv.2.Canonical fl

/-- The values the MAC covers, in document order: all, or with `only` those not stored in
plaintext. -/
def hashed (rx : RegexMatch) (cfg : Option PartialEncryption) (only : Bool) (m : RMap Value) : List Value :=
  ((leaves m).filter fun pv => ¬ (only = true ∧ Plain rx cfg pv.1)).map Prod.snd

/-- The fixed prefix of the hashed bytes with `mac_only_encrypted`; its hexadecimal text is
8A3FD2AD54CE66527B1034F3D147BE0B0B975B3BF44F72C6FDADEC8176F27D69, as in SOPS. -/
def macPrefix : Bytes :=
  [138, 63, 210, 173, 84, 206, 102, 82, 123, 16, 52, 243, 209, 71, 190, 11, 11, 151, 91, 59, 244, 79, 114, 198,
   253, 173, 236, 129, 118, 242, 125, 105]

/-- The bytes that are hashed: the concatenation of the bytes of the covered values, with
`only` after a fixed prefix. -/
def macInput (rx : RegexMatch) (cfg : Option PartialEncryption) (only : Bool) (m : RMap Value) : Bytes :=
  (if only then macPrefix else []) ++ (hashed rx cfg only m).flatMap plainBytes

/-- The nonces of the encrypted leaves, in document order. -/
def noncesOf (ls : List (List Str × EncLeaf)) : List Bytes :=
  ls.filterMap fun pl => match pl.2 with
    | .encrypted e => some e.nonce
    | .escaped _ => none

/-- The nonces of the encrypted values of a map. -/
def nonces (m : RMap EncLeaf) : List Bytes := noncesOf (leaves m)

/-- The draws of the random generator from position `i` up to but not including `j` are
distinct. -/
def NoRepeat (tape : Nat → Bytes) (i j : Nat) : Prop :=
  ∀ a b, i ≤ a → a < j → i ≤ b → b < j → tape a = tape b → a = b

/-- The cipher accepts, at the key path `p`, a ciphertext that was not produced for it:
`honest nonce data aad tag` holds for the ciphertexts made by the holders of the key. -/
def ForgedAt (C : Cipher) (key : Bytes) (honest : Bytes → Bytes → Bytes → Bytes → Prop)
    (p : List Str) (e : EncValue) : Prop :=
  C.decrypt e.nonce key e.data (utf8 (pathText p)) e.tag ≠ none ∧
    ¬ honest e.nonce e.data (utf8 (pathText p)) e.tag

/-- The map contains a forged ciphertext. -/
def Forged (C : Cipher) (key : Bytes) (honest : Bytes → Bytes → Bytes → Bytes → Prop)
    (m : RMap EncLeaf) : Prop :=
  ∃ p e, (p, EncLeaf.encrypted e) ∈ leaves m ∧ ForgedAt C key honest p e

/-- The ciphertexts of the values of a map, with their associated data. -/
def SealedIn (m : RMap EncLeaf) (nonce data aad tag : Bytes) : Prop :=
  ∃ p e, (p, EncLeaf.encrypted e) ∈ leaves m ∧ e.nonce = nonce ∧ e.data = data ∧
    aad = utf8 (pathText p) ∧ e.tag = tag

/-- The two byte strings are a collision of the hash. -/
def Collide (H : Hasher) (a b : Bytes) : Prop := a ≠ b ∧ H.digest a = H.digest b

end Rops.Spec
