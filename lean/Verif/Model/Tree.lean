import Verif.Model.EncValue
/-!
# Maps and trees

Models crates/lib/src/file/map/core.rs, key_path.rs and saved_nonces.rs.
-/

namespace Rops

/-- `RopsTree` (crates/lib/src/file/map/core.rs:10-15), with the leaf type as
parameter. The map case holds the entries of the `RopsMap` (core.rs:5-7), an
`IndexMap`: an association list in insertion order with distinct keys. That keys
are distinct is the invariant `Tree.WF`. -/
inductive Tree (α : Type) where
  | seq (l : List (Tree α))
  | map (m : List (Str × Tree α))
  | null
  | leaf (a : α)

/-- `RopsMap` (core.rs:5-7). -/
abbrev RMap (α : Type) := List (Str × Tree α)

/-- `IndexMap::insert`: replaces the value of an existing key in place, appends a new
one. Used for every map that rops builds (e.g. encrypt.rs:53, decrypt.rs:35). -/
def IndexMap.insert {β : Type} (m : List (Str × β)) (k : Str) (v : β) : List (Str × β) :=
  match m with
  | [] => [(k, v)]
  | (k', v') :: r => if k' = k then (k, v) :: r else (k', v') :: IndexMap.insert r k v

/-- `IndexMap::get`. -/
def IndexMap.get {β : Type} (m : List (Str × β)) (k : Str) : Option β :=
  match m with
  | [] => none
  | (k', v') :: r => if k' = k then some v' else IndexMap.get r k

/-- Leaf of an encrypted map, `RopsMapEncryptedLeaf`
(crates/lib/src/file/map/state.rs). -/
inductive EncLeaf where
  | encrypted (e : EncValue)
  | escaped (v : Value)
deriving DecidableEq, Repr

namespace KeyPath

/-- `KeyPath::join` (crates/lib/src/file/map/key_path.rs:6-8). -/
def join (path other : Str) : Str := path ++ other ++ [':']

/-- `KeyPath::last` (key_path.rs:10-12). -/
def last (path : Str) : Str :=
  match stripSuffixChar ':' path with
  | none => []
  | some s => match (splitOn ':' s).getLast? with
    | some l => l
    | none => []

end KeyPath

/-- `SavedRopsMapNonces` (crates/lib/src/file/map/saved_nonces.rs:10): the hash map
from (key path, value) to nonce, as an association list whose first entry counts. -/
abbrev SavedNonces := List ((Str × Value) × Bytes)

/-- `SavedRopsMapNonces::insert` (saved_nonces.rs:13-15): a later insert wins. -/
def SavedNonces.insert (s : SavedNonces) (path : Str) (v : Value) (nonce : Bytes) : SavedNonces :=
  ((path, v), nonce) :: s

/-- `SavedRopsMapNonces::get` (saved_nonces.rs:17-19). -/
def SavedNonces.get (s : SavedNonces) (path : Str) (v : Value) : Option Bytes :=
  match s with
  | [] => none
  | (key, n) :: r => if key = (path, v) then some n else SavedNonces.get r path v

end Rops
