import Verif.Spec.Aes
import Verif.Lemmas.Hashing
/-! The block cipher of the model against FIPS 197. -/

namespace Rops
open Spec

/-! ## Bytes -/

theorem sbox_eq : ∀ x < 256, subByte x = sbox x := by decide +kernel

theorem byteMul_two : ∀ x < 256, byteMul 2 x = xtime x := by decide +kernel

theorem byteMul_three : ∀ x < 256, byteMul 3 x = xtime x ^^^ x := by decide +kernel

theorem xor_lt_256 {a b : Nat} (ha : a < 256) (hb : b < 256) : a ^^^ b < 256 := Nat.xor_lt_two_pow (n := 8) ha hb

/-! ## Words -/

theorem bit_high {a i : Nat} (ha : a < 256) (hi : 8 ≤ i) : a.testBit i = false :=
  Nat.testBit_lt_two_pow (Nat.lt_of_lt_of_le ha (Nat.pow_le_pow_right (i := 8) (n := 2) (by decide) hi))

theorem aesWord_testBit {a b c d : Nat} (hb : b < 256) (hc : c < 256) (hd : d < 256) (i : Nat) :
    (aesWord a b c d).testBit i =
      if i < 8 then d.testBit i else if i < 16 then c.testBit (i - 8) else if i < 24 then b.testBit (i - 16)
      else a.testBit (i - 24) := by
  simp only [aesWord, Nat.testBit_or, Nat.testBit_shiftLeft]
  by_cases h1 : i < 8
  · simp [h1, show ¬ 24 ≤ i by omega, show ¬ 16 ≤ i by omega, show ¬ 8 ≤ i by omega]
  · by_cases h2 : i < 16
    · simp [h1, h2, show ¬ 24 ≤ i by omega, show ¬ 16 ≤ i by omega, show 8 ≤ i by omega, bit_high hd]
    · by_cases h3 : i < 24
      · simp [h1, h2, h3, show ¬ 24 ≤ i by omega, show 16 ≤ i by omega, show 8 ≤ i by omega, bit_high hd,
          bit_high hc (i := i - 8) (by omega)]
      · simp [h1, h2, h3, show 24 ≤ i by omega, show 16 ≤ i by omega, show 8 ≤ i by omega, bit_high hd,
          bit_high hc (i := i - 8) (by omega), bit_high hb (i := i - 16) (by omega)]

theorem aesWord_xor {a b c d a' b' c' d' : Nat} (hb : b < 256) (hc : c < 256) (hd : d < 256)
    (hb' : b' < 256) (hc' : c' < 256) (hd' : d' < 256) :
    aesWord a b c d ^^^ aesWord a' b' c' d' = aesWord (a ^^^ a') (b ^^^ b') (c ^^^ c') (d ^^^ d') := by
  apply Nat.eq_of_testBit_eq
  intro i
  rw [Nat.testBit_xor, aesWord_testBit hb hc hd, aesWord_testBit hb' hc' hd',
    aesWord_testBit (xor_lt_256 hb hb') (xor_lt_256 hc hc') (xor_lt_256 hd hd')]
  repeat' split
  all_goals simp [Nat.testBit_xor]

theorem aesWord_sum {a b c d : Nat} (hb : b < 256) (hc : c < 256) (hd : d < 256) :
    aesWord a b c d = a * 16777216 + b * 65536 + c * 256 + d := by
  unfold aesWord
  rw [← Nat.shiftLeft_add_eq_or_of_lt (i := 24) (b := b <<< 16) (by rw [Nat.shiftLeft_eq]; omega)]
  rw [show a <<< 24 + b <<< 16 = (a * 256 + b) <<< 16 by simp only [Nat.shiftLeft_eq]; omega]
  rw [← Nat.shiftLeft_add_eq_or_of_lt (i := 16) (b := c <<< 8) (by rw [Nat.shiftLeft_eq]; omega)]
  rw [show (a * 256 + b) <<< 16 + c <<< 8 = ((a * 256 + b) * 256 + c) <<< 8 by simp only [Nat.shiftLeft_eq]; omega]
  rw [← Nat.shiftLeft_add_eq_or_of_lt (i := 8) (b := d) (by omega)]
  simp only [Nat.shiftLeft_eq]
  omega

theorem aesWord_parts {a b c d : Nat} (ha : a < 256) (hb : b < 256) (hc : c < 256) (hd : d < 256) :
    aesWord a b c d >>> 24 = a ∧ aesWord a b c d >>> 16 % 256 = b ∧ aesWord a b c d >>> 8 % 256 = c ∧
    aesWord a b c d % 256 = d ∧ aesWord a b c d < 4294967296 := by
  rw [aesWord_sum hb hc hd]
  simp only [Nat.shiftRight_eq_div_pow]
  refine ⟨?_, ?_, ?_, ?_, ?_⟩ <;> omega

theorem subWord_word {a b c d : Nat} (ha : a < 256) (hb : b < 256) (hc : c < 256) (hd : d < 256) :
    subWord (aesWord a b c d) = aesWord (sbox a) (sbox b) (sbox c) (sbox d) := by
  obtain ⟨h1, h2, h3, h4, _⟩ := aesWord_parts ha hb hc hd
  rw [subWord, h1, h2, h3, h4, sbox_eq a ha, sbox_eq b hb, sbox_eq c hc, sbox_eq d hd]

theorem rotWord_word {a b c d : Nat} (ha : a < 256) (hb : b < 256) (hc : c < 256) (hd : d < 256) :
    rotWord (aesWord a b c d) = aesWord b c d a := by
  obtain ⟨h1, _, _, _, h5⟩ := aesWord_parts ha hb hc hd
  rw [rotWord, h1, ← Nat.shiftLeft_add_eq_or_of_lt (i := 8) ha, aesWord_sum hb hc hd, aesWord_sum hc hd ha, Nat.shiftLeft_eq]
  omega

/-! ## States -/

/-- Column `c` of a state as a word. -/
def stateColumn (t : AesState) (c : Nat) : Nat := aesWord (t 0 c) (t 1 c) (t 2 c) (t 3 c)

/-- The four columns of a state. -/
def stateColumns (t : AesState) : Columns := ⟨stateColumn t 0, stateColumn t 1, stateColumn t 2, stateColumn t 3⟩

/-- All are bytes. -/
def OfBytes (t : AesState) : Prop := ∀ r < 4, ∀ c < 4, t r c < 256

theorem sbox_lt {x : Nat} (h : x < 256) : sbox x < 256 := by rw [← sbox_eq x h]; exact subByte_lt x

theorem shifted_column {t : AesState} (ht : OfBytes t) {f : Nat → Nat → Nat → Nat → Nat} {i j k l : Nat}
    (hi : i < 4) (hj : j < 4) (hk : k < 4) (hl : l < 4) :
    shiftedColumn f (stateColumn t i) (stateColumn t j) (stateColumn t k) (stateColumn t l) =
      f (sbox (t 0 i)) (sbox (t 1 j)) (sbox (t 2 k)) (sbox (t 3 l)) := by
  unfold shiftedColumn stateColumn
  rw [(aesWord_parts (ht 0 (by decide) i hi) (ht 1 (by decide) i hi) (ht 2 (by decide) i hi) (ht 3 (by decide) i hi)).1,
    (aesWord_parts (ht 0 (by decide) j hj) (ht 1 (by decide) j hj) (ht 2 (by decide) j hj) (ht 3 (by decide) j hj)).2.1,
    (aesWord_parts (ht 0 (by decide) k hk) (ht 1 (by decide) k hk) (ht 2 (by decide) k hk) (ht 3 (by decide) k hk)).2.2.1,
    (aesWord_parts (ht 0 (by decide) l hl) (ht 1 (by decide) l hl) (ht 2 (by decide) l hl) (ht 3 (by decide) l hl)).2.2.2.1,
    sbox_eq _ (ht 0 (by decide) i hi), sbox_eq _ (ht 1 (by decide) j hj), sbox_eq _ (ht 2 (by decide) k hk),
    sbox_eq _ (ht 3 (by decide) l hl)]

theorem ofBytes_shift {t : AesState} (ht : OfBytes t) : OfBytes (shiftRows (subBytes t)) :=
  fun r hr c _ => sbox_lt (ht r hr _ (Nat.mod_lt _ (by decide)))

theorem ofBytes_mix {t : AesState} (ht : OfBytes t) : OfBytes (mixColumns t) := by
  intro r hr c hc
  have h := fun k => ht ((r + k) % 4) (Nat.mod_lt _ (by decide)) c hc
  unfold mixColumns
  rw [byteMul_two _ (ht r hr c hc), byteMul_three _ (h 1)]
  exact xor_lt_256 (xor_lt_256 (xor_lt_256 (xtime_lt _ (ht r hr c hc)) (xor_lt_256 (xtime_lt _ (h 1)) (h 1))) (h 2)) (h 3)

theorem step_last {t : AesState} (ht : OfBytes t) : (stateColumns t).step aesWord = stateColumns (shiftRows (subBytes t)) := by
  simp only [Columns.step, stateColumns]
  rw [shifted_column ht (by decide) (by decide) (by decide) (by decide), shifted_column ht (by decide) (by decide) (by decide) (by decide),
    shifted_column ht (by decide) (by decide) (by decide) (by decide), shifted_column ht (by decide) (by decide) (by decide) (by decide)]
  rfl

theorem mixColumn_eq {a b c d : Nat} (ha : a < 256) (hb : b < 256) (hc : c < 256) (hd : d < 256) :
    mixColumn a b c d = aesWord (byteMul 2 a ^^^ byteMul 3 b ^^^ c ^^^ d) (byteMul 2 b ^^^ byteMul 3 c ^^^ d ^^^ a)
      (byteMul 2 c ^^^ byteMul 3 d ^^^ a ^^^ b) (byteMul 2 d ^^^ byteMul 3 a ^^^ b ^^^ c) := by
  rw [byteMul_two a ha, byteMul_two b hb, byteMul_two c hc, byteMul_two d hd, byteMul_three a ha, byteMul_three b hb,
    byteMul_three c hc, byteMul_three d hd, mixColumn]
  congr 1 <;> ac_rfl

theorem step_mix {t : AesState} (ht : OfBytes t) :
    (stateColumns t).step mixColumn = stateColumns (mixColumns (shiftRows (subBytes t))) := by
  have h := ofBytes_shift ht
  simp only [Columns.step, stateColumns]
  rw [shifted_column ht (by decide) (by decide) (by decide) (by decide), shifted_column ht (by decide) (by decide) (by decide) (by decide),
    shifted_column ht (by decide) (by decide) (by decide) (by decide), shifted_column ht (by decide) (by decide) (by decide) (by decide)]
  have s := fun r hr c hc => sbox_lt (ht r hr c hc)
  rw [mixColumn_eq (s _ _ _ _) (s _ _ _ _) (s _ _ _ _) (s _ _ _ _), mixColumn_eq (s _ _ _ _) (s _ _ _ _) (s _ _ _ _) (s _ _ _ _),
    mixColumn_eq (s _ _ _ _) (s _ _ _ _) (s _ _ _ _) (s _ _ _ _), mixColumn_eq (s _ _ _ _) (s _ _ _ _) (s _ _ _ _) (s _ _ _ _)]
  any_goals decide
  rfl

theorem columns_xor {t k : AesState} (ht : OfBytes t) (hk : OfBytes k) :
    (stateColumns t).xor (stateColumns k) = stateColumns (fun r c => t r c ^^^ k r c) := by
  simp only [Columns.xor, stateColumns, stateColumn]
  rw [aesWord_xor, aesWord_xor, aesWord_xor, aesWord_xor]
  all_goals first | exact ht _ (by decide) _ (by decide) | exact hk _ (by decide) _ (by decide)

/-! ## Keys -/

/-- Round key `n` of a key schedule. -/
def roundKey (w : Nat → Nat → Nat) (n : Nat) : AesState := fun r c => w (4 * n + c) r

/-- All words of a key schedule are of bytes. -/
theorem expansion_bytes {key : Bytes} {w : Nat → Nat → Nat} (h : KeyExpansion key w) : ∀ i < 60, ∀ r < 4, w i r < 256 := by
  have hp : ∀ n < 8, bytePow 2 n < 256 := by decide +kernel
  intro i
  induction i using Nat.strongRecOn with
  | _ i ih =>
    intro hi r hr
    by_cases h8 : i < 8
    · rw [h.start i h8 r hr]
      exact UInt8.toNat_lt _
    · have h8 : 8 ≤ i := by omega
      have h1 := fun r hr => ih (i - 1) (by omega) (by omega) r hr
      rw [h.next i h8 hi r hr]
      refine xor_lt_256 (ih (i - 8) (by omega) (by omega) r hr) ?_
      unfold keyTemp
      split
      · refine xor_lt_256 (sbox_lt (h1 _ (Nat.mod_lt _ (by decide)))) ?_
        split
        · exact hp _ (by omega)
        · decide
      · split
        · exact sbox_lt (h1 r hr)
        · exact h1 r hr

theorem roundKey_bytes {key : Bytes} {w : Nat → Nat → Nat} (h : KeyExpansion key w) {n : Nat} (hn : n < 15) :
    OfBytes (roundKey w n) :=
  fun r hr c hc => expansion_bytes h _ (by omega) r hr

/-- Word `i` of a key schedule. -/
def keyWord (w : Nat → Nat → Nat) (i : Nat) : Nat := aesWord (w i 0) (w i 1) (w i 2) (w i 3)

theorem roundKey_columns (w : Nat → Nat → Nat) (n : Nat) :
    stateColumns (roundKey w n) = ⟨keyWord w (4 * n), keyWord w (4 * n + 1), keyWord w (4 * n + 2), keyWord w (4 * n + 3)⟩ := rfl

/-- A word that is neither at a multiple of eight nor four after. -/
theorem keyWord_plain {key : Bytes} {w : Nat → Nat → Nat} (h : KeyExpansion key w) {i : Nat} (h8 : 8 ≤ i) (hi : i < 60)
    (h0 : i % 8 ≠ 0) (h4 : i % 8 ≠ 4) : keyWord w i = keyWord w (i - 8) ^^^ keyWord w (i - 1) := by
  have b := expansion_bytes h
  unfold keyWord
  rw [aesWord_xor (b _ (by omega) _ (by decide)) (b _ (by omega) _ (by decide)) (b _ (by omega) _ (by decide))
    (b _ (by omega) _ (by decide)) (b _ (by omega) _ (by decide)) (b _ (by omega) _ (by decide))]
  rw [h.next i h8 hi 0 (by decide), h.next i h8 hi 1 (by decide), h.next i h8 hi 2 (by decide), h.next i h8 hi 3 (by decide)]
  simp only [keyTemp, if_neg h0, if_neg h4]

/-- A word four after a multiple of eight. -/
theorem keyWord_middle {key : Bytes} {w : Nat → Nat → Nat} (h : KeyExpansion key w) {i : Nat} (h8 : 8 ≤ i) (hi : i < 60)
    (h4 : i % 8 = 4) : keyWord w i = keyWord w (i - 8) ^^^ subWord (keyWord w (i - 1)) := by
  have b := expansion_bytes h
  unfold keyWord
  rw [subWord_word (b _ (by omega) _ (by decide)) (b _ (by omega) _ (by decide)) (b _ (by omega) _ (by decide)) (b _ (by omega) _ (by decide))]
  have s := fun r hr => sbox_lt (b (i - 1) (by omega) r hr)
  rw [aesWord_xor (b _ (by omega) _ (by decide)) (b _ (by omega) _ (by decide)) (b _ (by omega) _ (by decide))
    (s _ (by decide)) (s _ (by decide)) (s _ (by decide))]
  rw [h.next i h8 hi 0 (by decide), h.next i h8 hi 1 (by decide), h.next i h8 hi 2 (by decide), h.next i h8 hi 3 (by decide)]
  simp only [keyTemp, if_neg (show ¬ i % 8 = 0 by omega), if_pos h4]

/-- A word at a multiple of eight. -/
theorem keyWord_first {key : Bytes} {w : Nat → Nat → Nat} (h : KeyExpansion key w) {i : Nat} (h8 : 8 ≤ i) (hi : i < 60)
    (h0 : i % 8 = 0) :
    keyWord w i = keyWord w (i - 8) ^^^ subWord (rotWord (keyWord w (i - 1))) ^^^ bytePow 2 (i / 8 - 1) <<< 24 := by
  have b := expansion_bytes h
  have hr : bytePow 2 (i / 8 - 1) <<< 24 = aesWord (bytePow 2 (i / 8 - 1)) 0 0 0 := by simp [aesWord]
  unfold keyWord
  rw [rotWord_word (b _ (by omega) _ (by decide)) (b _ (by omega) _ (by decide)) (b _ (by omega) _ (by decide)) (b _ (by omega) _ (by decide)),
    subWord_word (b _ (by omega) _ (by decide)) (b _ (by omega) _ (by decide)) (b _ (by omega) _ (by decide)) (b _ (by omega) _ (by decide)), hr]
  have s := fun r hr => sbox_lt (b (i - 1) (by omega) r hr)
  have c := fun r hr => b (i - 8) (by omega) r hr
  rw [aesWord_xor (c _ (by decide)) (c _ (by decide)) (c _ (by decide))
    (s _ (by decide)) (s _ (by decide)) (s _ (by decide)),
    aesWord_xor (xor_lt_256 (c _ (by decide)) (s _ (by decide))) (xor_lt_256 (c _ (by decide)) (s _ (by decide)))
      (xor_lt_256 (c _ (by decide)) (s _ (by decide))) (by decide) (by decide) (by decide)]
  rw [h.next i h8 hi 0 (by decide), h.next i h8 hi 1 (by decide), h.next i h8 hi 2 (by decide), h.next i h8 hi 3 (by decide)]
  simp only [keyTemp, if_pos h0, if_true, Nat.xor_zero, Nat.xor_assoc, if_neg (show ¬ (1 : Nat) = 0 by decide),
    if_neg (show ¬ (2 : Nat) = 0 by decide), if_neg (show ¬ (3 : Nat) = 0 by decide)]

theorem nextKeys_eq {key : Bytes} {w : Nat → Nat → Nat} (h : KeyExpansion key w) {n : Nat} (hn : n < 6) :
    nextKeys (bytePow 2 n) (stateColumns (roundKey w (2 * n))) (stateColumns (roundKey w (2 * n + 1))) =
      (stateColumns (roundKey w (2 * n + 2)), stateColumns (roundKey w (2 * n + 3))) := by
  simp only [roundKey_columns, nextKeys]
  have e0 := keyWord_first h (i := 4 * (2 * n + 2)) (by omega) (by omega) (by omega)
  have e1 := keyWord_plain h (i := 4 * (2 * n + 2) + 1) (by omega) (by omega) (by omega) (by omega)
  have e2 := keyWord_plain h (i := 4 * (2 * n + 2) + 2) (by omega) (by omega) (by omega) (by omega)
  have e3 := keyWord_plain h (i := 4 * (2 * n + 2) + 3) (by omega) (by omega) (by omega) (by omega)
  have e4 := keyWord_middle h (i := 4 * (2 * n + 3)) (by omega) (by omega) (by omega)
  have e5 := keyWord_plain h (i := 4 * (2 * n + 3) + 1) (by omega) (by omega) (by omega) (by omega)
  have e6 := keyWord_plain h (i := 4 * (2 * n + 3) + 2) (by omega) (by omega) (by omega) (by omega)
  have e7 := keyWord_plain h (i := 4 * (2 * n + 3) + 3) (by omega) (by omega) (by omega) (by omega)
  rw [show 4 * (2 * n + 2) - 8 = 4 * (2 * n) by omega, show 4 * (2 * n + 2) - 1 = 4 * (2 * n + 1) + 3 by omega,
    show 4 * (2 * n + 2) / 8 - 1 = n by omega] at e0
  rw [show 4 * (2 * n + 2) + 1 - 8 = 4 * (2 * n) + 1 by omega, show 4 * (2 * n + 2) + 1 - 1 = 4 * (2 * n + 2) by omega] at e1
  rw [show 4 * (2 * n + 2) + 2 - 8 = 4 * (2 * n) + 2 by omega, show 4 * (2 * n + 2) + 2 - 1 = 4 * (2 * n + 2) + 1 by omega] at e2
  rw [show 4 * (2 * n + 2) + 3 - 8 = 4 * (2 * n) + 3 by omega, show 4 * (2 * n + 2) + 3 - 1 = 4 * (2 * n + 2) + 2 by omega] at e3
  rw [show 4 * (2 * n + 3) - 8 = 4 * (2 * n + 1) by omega, show 4 * (2 * n + 3) - 1 = 4 * (2 * n + 2) + 3 by omega] at e4
  rw [show 4 * (2 * n + 3) + 1 - 8 = 4 * (2 * n + 1) + 1 by omega, show 4 * (2 * n + 3) + 1 - 1 = 4 * (2 * n + 3) by omega] at e5
  rw [show 4 * (2 * n + 3) + 2 - 8 = 4 * (2 * n + 1) + 2 by omega, show 4 * (2 * n + 3) + 2 - 1 = 4 * (2 * n + 3) + 1 by omega] at e6
  rw [show 4 * (2 * n + 3) + 3 - 8 = 4 * (2 * n + 1) + 3 by omega, show 4 * (2 * n + 3) + 3 - 1 = 4 * (2 * n + 3) + 2 by omega] at e7
  rw [e7, e6, e5, e4, e3, e2, e1, e0]

theorem nextKeys_last {key : Bytes} {w : Nat → Nat → Nat} (h : KeyExpansion key w) :
    (nextKeys 64 (stateColumns (roundKey w 12)) (stateColumns (roundKey w 13))).1 = stateColumns (roundKey w 14) := by
  simp only [roundKey_columns, nextKeys]
  have e0 := keyWord_first h (i := 56) (by omega) (by omega) (by omega)
  have e1 := keyWord_plain h (i := 57) (by omega) (by omega) (by omega) (by omega)
  have e2 := keyWord_plain h (i := 58) (by omega) (by omega) (by omega) (by omega)
  have e3 := keyWord_plain h (i := 59) (by omega) (by omega) (by omega) (by omega)
  rw [show bytePow 2 (56 / 8 - 1) = 64 by decide +kernel] at e0
  rw [show 4 * 14 = 56 from rfl, e3, e2, e1, e0]

/-- A word of four bytes of a list. -/
theorem columns_of_bytes {b : Bytes} (hb : b.length = 16) : columns (beNat b) = stateColumns (blockState b) := by
  match b, hb with
  | [b0, b1, b2, b3, b4, b5, b6, b7, b8, b9, b10, b11, b12, b13, b14, b15], _ =>
    have h (x : UInt8) : x.toNat < 256 := x.toNat_lt
    simp only [stateColumns, stateColumn, blockState, List.getD_eq_getElem?_getD, List.getElem?_cons_succ, List.getElem?_cons_zero,
      Option.getD_some, Nat.reduceMul, Nat.reduceAdd]
    simp only [aesWord_sum (h _) (h _) (h _), columns, beNat, List.foldl_cons, List.foldl_nil, Nat.shiftRight_eq_div_pow]
    have := h b0; have := h b1; have := h b2; have := h b3; have := h b4; have := h b5; have := h b6; have := h b7
    have := h b8; have := h b9; have := h b10; have := h b11; have := h b12; have := h b13; have := h b14; have := h b15
    congr 1 <;> omega

theorem stateColumns_congr {t u : AesState} (h : ∀ r < 4, ∀ c < 4, t r c = u r c) : stateColumns t = stateColumns u := by
  simp only [stateColumns, stateColumn]
  rw [h 0 (by decide) 0 (by decide), h 1 (by decide) 0 (by decide), h 2 (by decide) 0 (by decide), h 3 (by decide) 0 (by decide),
    h 0 (by decide) 1 (by decide), h 1 (by decide) 1 (by decide), h 2 (by decide) 1 (by decide), h 3 (by decide) 1 (by decide),
    h 0 (by decide) 2 (by decide), h 1 (by decide) 2 (by decide), h 2 (by decide) 2 (by decide), h 3 (by decide) 2 (by decide),
    h 0 (by decide) 3 (by decide), h 1 (by decide) 3 (by decide), h 2 (by decide) 3 (by decide), h 3 (by decide) 3 (by decide)]

theorem start_columns {key : Bytes} {w : Nat → Nat → Nat} (h : KeyExpansion key w) (hk : key.length = 32) :
    columns (beNat (key.take 16)) = stateColumns (roundKey w 0) ∧ columns (beNat (key.drop 16)) = stateColumns (roundKey w 1) := by
  constructor
  · rw [columns_of_bytes (by simp [hk])]
    refine stateColumns_congr fun r hr c hc => ?_
    simp only [roundKey, blockState]
    rw [h.start _ (by omega) r hr, List.getD_eq_getElem?_getD, List.getD_eq_getElem?_getD, List.getElem?_take,
      if_pos (show r + 4 * c < 16 by omega), show r + 4 * c = 4 * (4 * 0 + c) + r by omega]
  · rw [columns_of_bytes (by simp [hk])]
    refine stateColumns_congr fun r hr c hc => ?_
    simp only [roundKey, blockState]
    rw [h.start _ (by omega) r hr, List.getD_eq_getElem?_getD, List.getD_eq_getElem?_getD, List.getElem?_drop,
      show 16 + (r + 4 * c) = 4 * (4 * 1 + c) + r by omega]

theorem aesKeys_eq {key : Bytes} {w : Nat → Nat → Nat} (h : KeyExpansion key w) (hk : key.length = 32) :
    aesKeys key = (List.range 15).map fun n => stateColumns (roundKey w n) := by
  obtain ⟨h0, h1⟩ := start_columns h hk
  have e0 := nextKeys_eq h (n := 0) (by decide)
  have e1 := nextKeys_eq h (n := 1) (by decide)
  have e2 := nextKeys_eq h (n := 2) (by decide)
  have e3 := nextKeys_eq h (n := 3) (by decide)
  have e4 := nextKeys_eq h (n := 4) (by decide)
  have e5 := nextKeys_eq h (n := 5) (by decide)
  have e6 := nextKeys_last h
  simp only [show bytePow 2 0 = 1 by decide +kernel, show bytePow 2 1 = 2 by decide +kernel, show bytePow 2 2 = 4 by decide +kernel,
    show bytePow 2 3 = 8 by decide +kernel, show bytePow 2 4 = 16 by decide +kernel, show bytePow 2 5 = 32 by decide +kernel,
    Nat.reduceMul, Nat.reduceAdd] at e0 e1 e2 e3 e4 e5
  simp only [aesKeys, h0, h1, keySchedule, e0, e1, e2, e3, e4, e5, e6]
  rfl

/-- The rounds from one on. -/
theorem aesRounds_eq {key : Bytes} {w : Nat → Nat → Nat} (h : KeyExpansion key w) {s : AesState} (hs : OfBytes s) :
    aesRounds (((List.range 15).map fun n => stateColumns (roundKey w n)).drop 1)
      ((stateColumns s).xor (stateColumns (roundKey w 0))) = stateColumns (aesCipher w s) ∧ OfBytes (aesCipher w s) := by
  have hstate : ∀ n ≤ 13, OfBytes (aesState w s n) := by
    intro n
    induction n with
    | zero => exact fun _ r hr c hc => xor_lt_256 (hs r hr c hc) (roundKey_bytes h (by decide) r hr c hc)
    | succ n ih =>
      intro hn r hr c hc
      exact xor_lt_256 (ofBytes_mix (ofBytes_shift (ih (by omega))) r hr c hc) (roundKey_bytes h (n := n + 1) (by omega) r hr c hc)
  have hstep : ∀ n < 13, ((stateColumns (aesState w s n)).step mixColumn).xor (stateColumns (roundKey w (n + 1))) =
      stateColumns (aesState w s (n + 1)) := by
    intro n hn
    rw [step_mix (hstate n (by omega)), columns_xor (ofBytes_mix (ofBytes_shift (hstate n (by omega)))) (roundKey_bytes h (by omega))]
    rfl
  have hfirst : (stateColumns s).xor (stateColumns (roundKey w 0)) = stateColumns (aesState w s 0) := by
    rw [columns_xor hs (roundKey_bytes h (by decide))]
    rfl
  have hlast : ((stateColumns (aesState w s 13)).step aesWord).xor (stateColumns (roundKey w 14)) = stateColumns (aesCipher w s) := by
    rw [step_last (hstate 13 (by omega)), columns_xor (ofBytes_shift (hstate 13 (by omega))) (roundKey_bytes h (by decide))]
    rfl
  refine ⟨?_, fun r hr c hc => xor_lt_256 (ofBytes_shift (hstate 13 (by omega)) r hr c hc) (roundKey_bytes h (n := 14) (by decide) r hr c hc)⟩
  rw [hfirst]
  show aesRounds [stateColumns (roundKey w 1), stateColumns (roundKey w 2), stateColumns (roundKey w 3), stateColumns (roundKey w 4),
    stateColumns (roundKey w 5), stateColumns (roundKey w 6), stateColumns (roundKey w 7), stateColumns (roundKey w 8),
    stateColumns (roundKey w 9), stateColumns (roundKey w 10), stateColumns (roundKey w 11), stateColumns (roundKey w 12),
    stateColumns (roundKey w 13), stateColumns (roundKey w 14)] _ = _
  simp only [aesRounds]
  rw [hstep 0 (by decide), hstep 1 (by decide), hstep 2 (by decide), hstep 3 (by decide), hstep 4 (by decide), hstep 5 (by decide),
    hstep 6 (by decide), hstep 7 (by decide), hstep 8 (by decide), hstep 9 (by decide), hstep 10 (by decide), hstep 11 (by decide),
    hstep 12 (by decide), hlast]

/-- The bytes of a state, column after column. -/
def stateBytes (t : AesState) : Bytes := (List.range 16).map fun i => UInt8.ofNat (t (i % 4) (i / 4))

theorem natBytes_step (n x b : Nat) (hb : b < 256) : natBytes (n + 1) (x * 256 + b) = natBytes n x ++ [UInt8.ofNat b] := by
  rw [natBytes, show (x * 256 + b) / 256 = x by omega, show (x * 256 + b) % 256 = b by omega]

theorem natBytes_columns {t : AesState} (ht : OfBytes t) :
    natBytes 16 (stateColumn t 0 <<< 96 ||| stateColumn t 1 <<< 64 ||| stateColumn t 2 <<< 32 ||| stateColumn t 3) = stateBytes t := by
  have hc : ∀ c < 4, stateColumn t c < 4294967296 := fun c hc =>
    (aesWord_parts (ht 0 (by decide) c hc) (ht 1 (by decide) c hc) (ht 2 (by decide) c hc) (ht 3 (by decide) c hc)).2.2.2.2
  have h1 := hc 1 (by decide)
  have h2 := hc 2 (by decide)
  have h3 := hc 3 (by decide)
  rw [← Nat.shiftLeft_add_eq_or_of_lt (i := 96) (b := stateColumn t 1 <<< 64) (by rw [Nat.shiftLeft_eq]; omega)]
  rw [show stateColumn t 0 <<< 96 + stateColumn t 1 <<< 64 = (stateColumn t 0 * 4294967296 + stateColumn t 1) <<< 64 by
    simp only [Nat.shiftLeft_eq]; omega]
  rw [← Nat.shiftLeft_add_eq_or_of_lt (i := 64) (b := stateColumn t 2 <<< 32) (by rw [Nat.shiftLeft_eq]; omega)]
  rw [show (stateColumn t 0 * 4294967296 + stateColumn t 1) <<< 64 + stateColumn t 2 <<< 32 =
    ((stateColumn t 0 * 4294967296 + stateColumn t 1) * 4294967296 + stateColumn t 2) <<< 32 by simp only [Nat.shiftLeft_eq]; omega]
  rw [← Nat.shiftLeft_add_eq_or_of_lt (i := 32) (b := stateColumn t 3) (by omega)]
  simp only [Nat.shiftLeft_eq, stateColumn]
  have b := fun r hr c hc => ht r hr c hc
  rw [aesWord_sum (b 1 (by decide) 0 (by decide)) (b 2 (by decide) 0 (by decide)) (b 3 (by decide) 0 (by decide)),
    aesWord_sum (b 1 (by decide) 1 (by decide)) (b 2 (by decide) 1 (by decide)) (b 3 (by decide) 1 (by decide)),
    aesWord_sum (b 1 (by decide) 2 (by decide)) (b 2 (by decide) 2 (by decide)) (b 3 (by decide) 2 (by decide)),
    aesWord_sum (b 1 (by decide) 3 (by decide)) (b 2 (by decide) 3 (by decide)) (b 3 (by decide) 3 (by decide))]
  have e : (((t 0 0 * 16777216 + t 1 0 * 65536 + t 2 0 * 256 + t 3 0) * 4294967296 + (t 0 1 * 16777216 + t 1 1 * 65536 + t 2 1 * 256 + t 3 1)) * 4294967296 + (t 0 2 * 16777216 + t 1 2 * 65536 + t 2 2 * 256 + t 3 2)) * 4294967296 + (t 0 3 * 16777216 + t 1 3 * 65536 + t 2 3 * 256 + t 3 3) =
      (((((((((((((((t 0 0) * 256 + t 1 0) * 256 + t 2 0) * 256 + t 3 0) * 256 + t 0 1) * 256 + t 1 1) * 256 + t 2 1) * 256 + t 3 1) * 256 + t 0 2) * 256 + t 1 2) * 256 + t 2 2) * 256 + t 3 2) * 256 + t 0 3) * 256 + t 1 3) * 256 + t 2 3) * 256 + t 3 3 := by omega
  refine (congrArg (natBytes 16) e).trans ?_
  rw [natBytes_step _ _ _ (b 3 (by decide) 3 (by decide)), natBytes_step _ _ _ (b 2 (by decide) 3 (by decide)), natBytes_step _ _ _ (b 1 (by decide) 3 (by decide)), natBytes_step _ _ _ (b 0 (by decide) 3 (by decide)), natBytes_step _ _ _ (b 3 (by decide) 2 (by decide)), natBytes_step _ _ _ (b 2 (by decide) 2 (by decide)), natBytes_step _ _ _ (b 1 (by decide) 2 (by decide)), natBytes_step _ _ _ (b 0 (by decide) 2 (by decide)), natBytes_step _ _ _ (b 3 (by decide) 1 (by decide)), natBytes_step _ _ _ (b 2 (by decide) 1 (by decide)), natBytes_step _ _ _ (b 1 (by decide) 1 (by decide)), natBytes_step _ _ _ (b 0 (by decide) 1 (by decide)), natBytes_step _ _ _ (b 3 (by decide) 0 (by decide)), natBytes_step _ _ _ (b 2 (by decide) 0 (by decide)), natBytes_step _ _ _ (b 1 (by decide) 0 (by decide)),
    show t 0 0 = 0 * 256 + t 0 0 by omega, natBytes_step _ _ _ (b 0 (by decide) 0 (by decide))]
  rfl

/-- The columns one after the other. -/
def joined (s : Columns) : Nat := s.c0 <<< 96 ||| s.c1 <<< 64 ||| s.c2 <<< 32 ||| s.c3

theorem aesBlock_eq {key : Bytes} {w : Nat → Nat → Nat} (h : KeyExpansion key w) (hk : key.length = 32) {b : Bytes} (hb : b.length = 16) :
    natBytes 16 (aesBlock (aesKeys key) (beNat b)) = stateBytes (aesCipher w (blockState b)) := by
  have hs : OfBytes (blockState b) := fun r _ c _ => UInt8.toNat_lt _
  obtain ⟨hr, ho⟩ := aesRounds_eq h hs
  rw [aesKeys_eq h hk, ← natBytes_columns ho]
  show natBytes 16 (joined (aesRounds (((List.range 15).map fun n => stateColumns (roundKey w n)).drop 1)
      ((columns (beNat b)).xor (stateColumns (roundKey w 0))))) = _
  rw [columns_of_bytes hb, hr]
  rfl

end Rops
