import Verif.Model.EncValue
/-!
# Small instances of the parameters

A cipher, a hasher and float operations that satisfy the assumptions, used only
in the `example`s that show that the hypotheses of the theorems can be met.
-/

namespace Rops.Toy

/-- Checksum used as tag. -/
def sum (l : Bytes) : UInt8 := l.foldl (fun a b => a * 31 + b + 1) 7

/-- Adds a checksum of nonce and key to each byte. -/
def mask (n k p : Bytes) : Bytes := p.map (· + sum (n ++ k))

/-- Inverse of `mask`. -/
def unmask (n k c : Bytes) : Bytes := c.map (· - sum (n ++ k))

/-- Two checksum bytes. -/
def tag (n k p a : Bytes) : Bytes := [sum (p ++ n ++ k ++ a), sum a]

theorem unmask_mask (n k p : Bytes) : unmask n k (mask n k p) = p := by
  unfold unmask mask
  rw [List.map_map]
  conv => rhs; rw [← List.map_id p]
  apply List.map_congr_left
  intro x _
  simp

/-- A cipher with a checksum as tag. -/
def cipher : Cipher where
  name := c!"AES256_GCM"
  nonceSize := 2
  tagSize := 2
  encrypt n k p a := some (mask n k p, tag n k p a)
  decrypt n k c a t := if t = tag n k (unmask n k c) a then some (unmask n k c) else none

theorem cipher_lawful : cipher.Lawful where
  decrypt_encrypt := by
    intro n k p a c t h
    have h : some (mask n k p, tag n k p a) = some (c, t) := h
    injection h with h
    injection h with h1 h2
    show (if t = tag n k (unmask n k c) a then some (unmask n k c) else none) = some p
    rw [← h1, ← h2, unmask_mask, if_pos rfl]
  tag_length := by
    intro n k p a c t h
    have h : some (mask n k p, tag n k p a) = some (c, t) := h
    injection h with h
    injection h with h1 h2
    rw [← h2]; rfl
  name_no_comma := by decide

theorem cipher_total : cipher.Total := fun _ _ _ _ => rfl

/-- The "hash" of a byte string is the byte string. -/
def hasher : Hasher where
  State := Bytes
  init := []
  update s b := s ++ b
  finalize s := s

theorem hasher_streaming : hasher.Streaming where
  update_append := fun _ _ _ => List.append_assoc ..
  update_nil := fun _ => List.append_nil _

/-- Knows a few float texts. -/
def floats : FloatOps where
  reprint s :=
    if s = c!"1.50" then some c!"1.5"
    else if s = c!"1.5" then some c!"1.5"
    else if s = c!"0.1" then some c!"0.1"
    else if s = c!"inf" then some c!"inf"
    else none
  reprint_idem := by
    intro s t h
    split at h
    · cases h; decide
    split at h
    · cases h; decide
    split at h
    · cases h; decide
    split at h
    · cases h; decide
    · cases h

/-- Decides equations between results in examples. -/
instance {ε α : Type} [DecidableEq ε] [DecidableEq α] : DecidableEq (Except ε α)
  | .ok a, .ok b => if h : a = b then .isTrue (by rw [h]) else .isFalse (by intro e; cases e; exact h rfl)
  | .error a, .error b => if h : a = b then .isTrue (by rw [h]) else .isFalse (by intro e; cases e; exact h rfl)
  | .ok _, .error _ => .isFalse nofun
  | .error _, .ok _ => .isFalse nofun

end Rops.Toy
