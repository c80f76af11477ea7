import Verif.Model.Tree
/-!
# The content of a document, independent of the order of keys

A place in a document is a list of steps, each a key or a position. Two documents have the
same content when the same kind of node is found at every place, with equal scalars.
-/

namespace Rops.Spec

/-- A step into a document. -/
inductive Step where
  | key (k : Str)
  | pos (n : Nat)

/-- What is found at a place. -/
inductive Node (α : Type) where
  | leaf (a : α)
  | null
  | map
  | seq

/-- The entry of a key. -/
def entry {α : Type} (m : RMap α) (k : Str) : Option (Tree α) := (m.find? fun kv => kv.1 = k).map Prod.snd

/-- The node at a place. -/
def nodeAt {α : Type} : List Step → Tree α → Option (Node α)
  | [], .leaf a => some (.leaf a)
  | [], .null => some .null
  | [], .map _ => some .map
  | [], .seq _ => some .seq
  | .key k :: r, .map m => (entry m k).bind (nodeAt r)
  | .pos n :: r, .seq l => l[n]?.bind (nodeAt r)
  | _ :: _, _ => none

/-- The nodes are of the same kind, with the same scalars. -/
def SameNode {α : Type} (same : α → α → Prop) : Option (Node α) → Option (Node α) → Prop
  | none, none => True
  | some (.leaf a), some (.leaf b) => same a b
  | some .null, some .null => True
  | some .map, some .map => True
  | some .seq, some .seq => True
  | _, _ => False

/-- The documents have the same content. -/
def SameContent {α : Type} (same : α → α → Prop) (a b : Tree α) : Prop :=
  ∀ place, SameNode same (nodeAt place a) (nodeAt place b)

mutual
/-- No map of the document has a key twice. -/
def DistinctKeys {α : Type} : Tree α → Prop
  | .seq l => DistinctKeysSeq l
  | .map m => (m.map Prod.fst).Nodup ∧ DistinctKeysMap m
  | .null => True
  | .leaf _ => True
/-- See `DistinctKeys`. -/
def DistinctKeysSeq {α : Type} : List (Tree α) → Prop
  | [] => True
  | t :: r => DistinctKeys t ∧ DistinctKeysSeq r
/-- See `DistinctKeys`. -/
def DistinctKeysMap {α : Type} : RMap α → Prop
  | [] => True
  | (_, t) :: r => DistinctKeys t ∧ DistinctKeysMap r
end

end Rops.Spec
