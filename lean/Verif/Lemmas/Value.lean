import Verif.Model.EncValue
import Verif.Lemmas.Text
/-! Lemmas on leaf values. -/

namespace Rops

theorem parseNat_toDigits (n : Nat) : parseNat (Nat.toDigits 10 n) = some n := by
  unfold parseNat
  rw [if_pos, Nat.ofDigitChars_toDigits (by decide) (by decide)]
  refine ⟨Nat.toDigits_ne_nil, ?_⟩
  rw [List.all_eq_true]
  intro c hc
  exact Nat.isDigit_of_mem_toDigits (by decide) (by decide) hc

theorem parseInt_of_digit {c : Char} {cs : Str} (h : c.isDigit = true) :
    parseInt (c :: cs) = (parseNat (c :: cs)).bind fun n => toInt64? n := by
  unfold parseInt
  split
  · rename_i ds heq; cases heq; exact absurd h (by decide)
  · rename_i ds heq; cases heq; exact absurd h (by decide)
  · rfl

theorem parseInt_showInt (i : Int64) : parseInt (showInt i) = some i := by
  have hlo := i.le_toInt
  have hhi := i.toInt_lt
  unfold showInt
  simp only
  split
  · rename_i hneg
    simp only [parseInt]
    rw [parseNat_toDigits, Option.bind_some]
    have : -((i.toInt.natAbs : Nat) : Int) = i.toInt := by omega
    rw [this, toInt64?, if_pos ⟨hlo, hhi⟩, Int64.ofInt_toInt]
  · rename_i hneg
    cases hd : Nat.toDigits 10 i.toInt.natAbs with
    | nil => exact absurd hd Nat.toDigits_ne_nil
    | cons c cs =>
      have hc : c.isDigit = true :=
        Nat.isDigit_of_mem_toDigits (b := 10) (n := i.toInt.natAbs) (by decide) (by decide) (by rw [hd]; simp)
      rw [parseInt_of_digit hc, ← hd, parseNat_toDigits, Option.bind_some]
      have : ((i.toInt.natAbs : Nat) : Int) = i.toInt := by omega
      rw [this, toInt64?, if_pos ⟨hlo, hhi⟩, Int64.ofInt_toInt]

theorem boolBytes_ne : Value.boolBytes false ≠ Value.boolBytes true := by decide

theorem Value.fromBytes_asBytes {fl : FloatOps} {v : Value} (h : v.Canonical fl) :
    Value.fromBytes fl v.asBytes v.variant = .ok v := by
  cases v with
  | string s => simp [fromBytes, asBytes, variant, utf8?_utf8]
  | boolean b => cases b <;> simp [fromBytes, asBytes, variant, boolBytes_ne]
  | integer i => simp [fromBytes, asBytes, variant, utf8?_utf8, parseInt_showInt]
  | float t =>
    have h : fl.reprint t = some t := h
    simp [fromBytes, asBytes, variant, utf8?_utf8, h]

theorem Value.canonical_of_fromBytes {fl : FloatOps} {b : Bytes} {ty : Variant} {v : Value}
    (h : Value.fromBytes fl b ty = .ok v) : v.Canonical fl ∧ v.variant = ty := by
  cases ty with
  | string =>
    simp only [fromBytes] at h
    split at h <;> cases h
    exact ⟨trivial, rfl⟩
  | boolean =>
    simp only [fromBytes] at h
    split at h
    · cases h; exact ⟨trivial, rfl⟩
    split at h <;> cases h
    exact ⟨trivial, rfl⟩
  | integer =>
    simp only [fromBytes] at h
    split at h
    · cases h
    split at h <;> cases h
    exact ⟨trivial, rfl⟩
  | float =>
    simp only [fromBytes] at h
    split at h
    · cases h
    split at h <;> cases h
    rename_i s t hs
    exact ⟨fl.reprint_idem hs, rfl⟩

theorem Value.decrypt_encrypt {C : Cipher} (hC : C.Lawful) {fl : FloatOps} {n k : Bytes} {p : Str}
    {v : Value} {e : EncValue} (hv : v.Canonical fl) (h : v.encrypt C n k p = some e) :
    e.decrypt C fl k p = .ok v := by
  unfold Value.encrypt at h
  split at h
  · rename_i data tag he
    cases h
    simp only [EncValue.decrypt, hC.decrypt_encrypt he, Value.fromBytes_asBytes hv]
  · cases h

theorem Value.sized_of_encrypt {C : Cipher} (hC : C.Lawful) {n k : Bytes} {p : Str}
    {v : Value} {e : EncValue} (hn : n.length = C.nonceSize) (h : v.encrypt C n k p = some e) :
    e.Sized C ∧ e.nonce = n ∧ e.variant = v.variant := by
  unfold Value.encrypt at h
  split at h
  · rename_i data tag he
    cases h
    exact ⟨⟨hn, hC.tag_length he⟩, rfl, rfl⟩
  · cases h

end Rops
