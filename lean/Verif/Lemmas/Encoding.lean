import Verif.Spec.Encoding
import Verif.Model.Base64
import Verif.Model.Mac
/-! The model's encodings are the specified ones. -/

namespace Rops
open Spec

theorem byteBits_spec (x : UInt8) : ∃ a b c d e f g h : Bool, byteBits x = [a, b, c, d, e, f, g, h] ∧
    x.toNat = 128 * a.toNat + 64 * b.toNat + 32 * c.toNat + 16 * d.toNat + 8 * e.toNat + 4 * f.toNat +
      2 * g.toNat + h.toNat := by
  refine ⟨_, _, _, _, _, _, _, _, rfl, ?_⟩
  have : ∀ n : Fin 256, n.val = 128 * (n.val.testBit 7).toNat + 64 * (n.val.testBit 6).toNat +
      32 * (n.val.testBit 5).toNat + 16 * (n.val.testBit 4).toNat + 8 * (n.val.testBit 3).toNat +
      4 * (n.val.testBit 2).toNat + 2 * (n.val.testBit 1).toNat + (n.val.testBit 0).toNat := by decide +kernel
  exact this ⟨x.toNat, x.toNat_lt⟩

theorem Base64.char_eq {n : Nat} (h : n < 64) : Base64.char n = base64Alphabet.getD n '?' := by
  have : ∀ n : Fin 64, Base64.char n.val = base64Alphabet.getD n.val '?' := by decide +kernel
  exact this ⟨n, h⟩

theorem Bool.toNat_le_one' (b : Bool) : b.toNat ≤ 1 := by cases b <;> decide

theorem base64Symbols_cons (a b c : UInt8) (r : Bytes) : base64Symbols (a :: b :: c :: r) =
    Base64.char ((a.toNat * 65536 + b.toNat * 256 + c.toNat) / 262144) ::
    Base64.char ((a.toNat * 65536 + b.toNat * 256 + c.toNat) / 4096 % 64) ::
    Base64.char ((a.toNat * 65536 + b.toNat * 256 + c.toNat) / 64 % 64) ::
    Base64.char ((a.toNat * 65536 + b.toNat * 256 + c.toNat) % 64) :: base64Symbols r := by
  obtain ⟨a7, a6, a5, a4, a3, a2, a1, a0, ha, va⟩ := byteBits_spec a
  obtain ⟨b7, b6, b5, b4, b3, b2, b1, b0, hb, vb⟩ := byteBits_spec b
  obtain ⟨c7, c6, c5, c4, c3, c2, c1, c0, hc, vc⟩ := byteBits_spec c
  simp only [base64Symbols, bits, List.flatMap_cons, ha, hb, hc, List.cons_append, List.nil_append, sextets,
    List.map_cons, ofBits, List.foldl_cons, List.foldl_nil]
  have bound := Bool.toNat_le_one'
  have l7 := bound a7; have l6 := bound a6; have l5 := bound a5; have l4 := bound a4
  have l3 := bound a3; have l2 := bound a2; have l1 := bound a1; have l0 := bound a0
  have m7 := bound b7; have m6 := bound b6; have m5 := bound b5; have m4 := bound b4
  have m3 := bound b3; have m2 := bound b2; have m1 := bound b1; have m0 := bound b0
  have n7 := bound c7; have n6 := bound c6; have n5 := bound c5; have n4 := bound c4
  have n3 := bound c3; have n2 := bound c2; have n1 := bound c1; have n0 := bound c0
  rw [va, vb, vc]
  rw [Base64.char_eq (by omega), Base64.char_eq (by omega), Base64.char_eq (by omega), Base64.char_eq (by omega)]
  congr 2
  · omega
  congr 2
  · omega
  congr 2
  · omega
  congr 2
  omega

theorem base64Symbols_two (a b : UInt8) : base64Symbols [a, b] =
    [Base64.char ((a.toNat * 65536 + b.toNat * 256) / 262144),
     Base64.char ((a.toNat * 65536 + b.toNat * 256) / 4096 % 64),
     Base64.char ((a.toNat * 65536 + b.toNat * 256) / 64 % 64)] := by
  obtain ⟨a7, a6, a5, a4, a3, a2, a1, a0, ha, va⟩ := byteBits_spec a
  obtain ⟨b7, b6, b5, b4, b3, b2, b1, b0, hb, vb⟩ := byteBits_spec b
  simp only [base64Symbols, bits, List.flatMap_cons, ha, hb, List.cons_append, List.nil_append, sextets,
    List.map_cons, ofBits, List.foldl_cons, List.foldl_nil, List.flatMap_nil, List.append_nil, List.map_nil,
    List.length_cons, List.length_nil, List.replicate_succ, List.replicate_zero, Nat.reduceSub, Nat.reduceAdd,
    Bool.toNat_false]
  have bound := Bool.toNat_le_one'
  have l7 := bound a7; have l6 := bound a6; have l5 := bound a5; have l4 := bound a4
  have l3 := bound a3; have l2 := bound a2; have l1 := bound a1; have l0 := bound a0
  have m7 := bound b7; have m6 := bound b6; have m5 := bound b5; have m4 := bound b4
  have m3 := bound b3; have m2 := bound b2; have m1 := bound b1; have m0 := bound b0
  rw [va, vb]
  rw [Base64.char_eq (by omega), Base64.char_eq (by omega), Base64.char_eq (by omega)]
  congr 2
  · omega
  congr 2
  · omega
  congr 2
  omega

theorem base64Symbols_one (a : UInt8) : base64Symbols [a] =
    [Base64.char (a.toNat * 65536 / 262144), Base64.char (a.toNat * 65536 / 4096 % 64)] := by
  obtain ⟨a7, a6, a5, a4, a3, a2, a1, a0, ha, va⟩ := byteBits_spec a
  simp only [base64Symbols, bits, List.flatMap_cons, ha, List.cons_append, List.nil_append, sextets,
    List.map_cons, ofBits, List.foldl_cons, List.foldl_nil, List.flatMap_nil, List.append_nil, List.map_nil,
    List.length_cons, List.length_nil, List.replicate_succ, List.replicate_zero, Nat.reduceSub, Nat.reduceAdd,
    Bool.toNat_false]
  have bound := Bool.toNat_le_one'
  have l7 := bound a7; have l6 := bound a6; have l5 := bound a5; have l4 := bound a4
  have l3 := bound a3; have l2 := bound a2; have l1 := bound a1; have l0 := bound a0
  rw [va]
  rw [Base64.char_eq (by omega), Base64.char_eq (by omega)]
  congr 2
  · omega
  congr 2
  omega

theorem Base64.encode_eq_spec (b : Bytes) : Base64.encode b = base64 b := by
  fun_induction Base64.encode b with
  | case1 => rfl
  | case2 a n => simp only [base64, base64Symbols_one]; rfl
  | case3 a b n => simp only [base64, base64Symbols_two]; rfl
  | case4 a b c rest n ih =>
    rw [ih]
    simp only [base64, base64Symbols_cons, List.length_cons, List.cons_append]
    have : ∀ k, (k + 1 + 1 + 1 + 1) % 4 = k % 4 := fun k => by omega
    rw [this]

theorem hexDigit_eq {n : Nat} (h : n < 16) : hexDigit n = c!"0123456789ABCDEF".getD n '?' := by
  have : ∀ n : Fin 16, hexDigit n.val = c!"0123456789ABCDEF".getD n.val '?' := by decide +kernel
  exact this ⟨n, h⟩

theorem hexUpper_eq_spec (b : Bytes) : hexUpper b = Spec.hex b := by
  unfold hexUpper Spec.hex
  congr 1
  funext x
  have := x.toNat_lt
  rw [hexDigit_eq (by omega), hexDigit_eq (by omega)]

end Rops
