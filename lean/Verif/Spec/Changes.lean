import Verif.Spec.File
import Verif.Spec.Syntax
/-!
# Changes of the map of an encrypted file

An item is a leaf of an encrypted map together with the value it is read as. A changed map is
described by its items.
-/

namespace Rops.Spec

/-- A leaf of an encrypted map and the value it holds. -/
structure FileItem where
  path : List Str
  leaf : EncLeaf
  value : Value

/-- The items of a file that holds the map `m` as `m'`. -/
def items (m : RMap Value) (m' : RMap EncLeaf) : List FileItem :=
  List.zipWith (fun pv pl => ⟨pv.1, pl.2, pv.2⟩) (leaves m) (leaves m')

/-- The leaves of the items. -/
def itemLeaves (its : List FileItem) : List (List Str × EncLeaf) := its.map fun it => (it.path, it.leaf)

/-- What an item adds to the hashed bytes. -/
def FileItem.bytes (rx : RegexMatch) (cfg : Option PartialEncryption) (only : Bool) (it : FileItem) : Bytes :=
  if only = true ∧ Plain rx cfg it.path then [] else plainBytes it.value

/-- The hashed bytes of a file with the items. -/
def hashedBytes (rx : RegexMatch) (md : Metadata EncValue) (its : List FileItem) : Bytes :=
  (if md.macOnlyEncrypted = some true then macPrefix else []) ++
    its.flatMap (FileItem.bytes rx md.partialEncryption (md.macOnlyEncrypted.getD false))

/-- Items that anybody can make who has only the file: a plaintext value where the setting asks for
plaintext, or an encrypted value of the file at a place with the same joined key path, with any
type tag that its bytes can be read as. -/
def Makeable (fl : FloatOps) (rx : RegexMatch) (cfg : Option PartialEncryption) (rep : Value → Prop) (orig : List FileItem)
    (it : FileItem) : Prop :=
  (it.leaf = .escaped it.value ∧ Plain rx cfg it.path ∧ rep it.value) ∨
  ∃ o ∈ orig, ∃ e t, o.leaf = .encrypted e ∧ it.leaf = .encrypted { e with variant := t } ∧
    pathText it.path = pathText o.path ∧ ¬ Plain rx cfg it.path ∧ ReadsAs fl (plainBytes o.value) t it.value

/-- The file with the map replaced is decrypted without error. -/
def Opens (env : Env) {F : Format} (Fo : Format) (f : EncFile F) (m2' : RMap EncLeaf) : Prop :=
  ∃ x, ∃ g : DecFile Fo, F.encOfInternal env.C m2' = some x ∧ EncFile.decrypt Fo env { f with map := x } = .ok g

end Rops.Spec
