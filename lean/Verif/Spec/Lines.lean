import Verif.Spec.Tree
/-!
# Specification: texts that differ in few lines
-/

namespace Rops.Spec

/-- The lines of a text. -/
def TextLines (s : Str) : List Str → Prop
  | [] => False
  | [l] => s = l ∧ '\n' ∉ l
  | l :: r => ∃ t, s = l ++ '\n' :: t ∧ '\n' ∉ l ∧ TextLines t r

/-- The number of places at which two lists differ. -/
def changes {α : Type} [DecidableEq α] (l l' : List α) : Nat := ((l.zip l').filter fun p => p.1 ≠ p.2).length

/-- Two texts have the same number of lines and differ in no more than `k` of them. -/
def FewLines (k : Nat) (s s' : Str) : Prop :=
  ∃ ls ls', TextLines s ls ∧ TextLines s' ls' ∧ ls.length = ls'.length ∧ changes ls ls' ≤ k

/-- Encrypted values of a map with the same key path and value have the same nonce. (For one, there are no two
such values.) -/
def OneNonceEach (m : RMap Value) (m' : RMap EncLeaf) : Prop :=
  ∀ (a b : Nat) (p q : List Str) (v : Value) (x y : EncValue), (leaves m)[a]? = some (p, v) → (leaves m)[b]? = some (q, v) →
    (leaves m')[a]? = some (p, .encrypted x) → (leaves m')[b]? = some (q, .encrypted y) → pathText p = pathText q → x.nonce = y.nonce

/-- A value that is not a text of several lines. (The texts of floats are all on one line.) -/
def OneLineValue (v : Value) : Prop := ∀ s, v = .string s ∨ v = .float s → '\n' ∉ s

/-- Values in plaintext that an edit changes are on one line, before and after. -/
def OneLineChanges (rx : RegexMatch) (cfg : Option PartialEncryption) (m m1 : RMap Value) : Prop :=
  ∀ (i : Nat) (q : List Str) (v w : Value), (leaves m)[i]? = some (q, v) → (leaves m1)[i]? = some (q, w) → v ≠ w → Plain rx cfg q →
    OneLineValue v ∧ OneLineValue w

end Rops.Spec
