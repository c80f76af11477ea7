import Verif.Spec.Ghash
import Verif.Lemmas.Aes
import Verif.Lemmas.Sha
import Mathlib.Tactic.Ring
/-! The hash of GCM in the model against polynomials over the field with two elements. -/

namespace Rops
open Spec Polynomial

/-- The field of GCM. -/
noncomputable abbrev GcmField := AdjoinRoot gcmModulus

/-- x in this field. -/
noncomputable abbrev gcmX : GcmField := AdjoinRoot.root gcmModulus

theorem gcm_two (a : GcmField) : a + a = 0 := by
  have h : (2 : ZMod 2) = 0 := by decide
  have e : (2 : GcmField) = 0 := by
    have := congrArg (AdjoinRoot.of gcmModulus) h
    rwa [map_ofNat, map_zero] at this
  rw [← two_mul, e, zero_mul]

theorem gcmModulus_eq : gcmModulus = X ^ 128 + X ^ 7 + X ^ 2 + X + 1 := by delta gcmModulus; exact Eq.refl _

attribute [local irreducible] gcmModulus

theorem gcm_x128 : gcmX ^ 128 = gcmX ^ 7 + gcmX ^ 2 + gcmX + 1 := by
  have h (f : (ZMod 2)[X]) (hf : gcmModulus = f) : AdjoinRoot.mk gcmModulus f = 0 := by rw [← hf]; exact AdjoinRoot.mk_self
  have e := h _ gcmModulus_eq
  simp only [map_add, map_pow, map_one, AdjoinRoot.mk_X] at e
  have e2 := gcm_two (gcmX ^ 7 + gcmX ^ 2 + gcmX + 1)
  generalize gcmX ^ 128 = y at e ⊢
  have : y + (gcmX ^ 7 + gcmX ^ 2 + gcmX + 1) = (gcmX ^ 7 + gcmX ^ 2 + gcmX + 1) + (gcmX ^ 7 + gcmX ^ 2 + gcmX + 1) := by
    rw [e2, ← e]; ring
  exact add_right_cancel this

/-- The element of a block that is given by a number. -/
noncomputable def element (n : Nat) : GcmField := ∑ i ∈ Finset.range 128, if n.testBit (127 - i) then gcmX ^ i else 0

theorem element_xor (a b : Nat) : element (a ^^^ b) = element a + element b := by
  unfold element
  rw [← Finset.sum_add_distrib]
  refine Finset.sum_congr rfl fun i _ => ?_
  rw [Nat.testBit_xor]
  cases a.testBit (127 - i) <;> cases b.testBit (127 - i) <;> simp [gcm_two]

theorem element_zero : element 0 = 0 := by simp [element]

/-- The step of the product of blocks multiplies by x. -/
theorem element_mulX {v : Nat} (hv : v < 2 ^ 128) : element (mulX v) = gcmX * element v := by
  have hhalf : element (v / 2) = gcmX * element v + if v % 2 = 1 then gcmX ^ 128 else 0 := by
    unfold element
    have h128 : v.testBit 128 = false := Nat.testBit_lt_two_pow hv
    rw [Finset.sum_range_succ' _ 127, Finset.sum_range_succ _ 127, mul_add, Finset.mul_sum]
    have e1 : (if (v / 2).testBit (127 - 0) = true then gcmX ^ 0 else 0) = 0 := by
      rw [if_neg]
      rw [← Nat.testBit_add_one]
      simpa using h128
    have e2 : gcmX * (if v.testBit (127 - 127) = true then gcmX ^ 127 else 0) + (if v % 2 = 1 then gcmX ^ 128 else 0) = 0 := by
      rw [show v.testBit (127 - 127) = decide (v % 2 = 1) by simp [Nat.testBit_zero]]
      by_cases h : v % 2 = 1
      · simp only [h, decide_true, if_true]
        rw [show gcmX * gcmX ^ 127 = gcmX ^ 128 by rw [← pow_succ'], gcm_two]
      · simp [h]
    rw [e1, add_zero, add_assoc, e2, add_zero]
    refine Finset.sum_congr rfl fun i hi => ?_
    have hi := Finset.mem_range.1 hi
    rw [← Nat.testBit_add_one, show 127 - (i + 1) + 1 = 127 - i by omega, pow_succ']
    split <;> simp
  have hr : element (0xe1 <<< 120) = gcmX ^ 128 := by
    rw [gcm_x128]
    unfold element
    have e : ∀ i, i < 128 → (Nat.testBit (0xe1 <<< 120) (127 - i) = (decide (i = 7) || decide (i = 2) || decide (i = 1) || decide (i = 0))) := by
      decide +kernel
    rw [Finset.sum_congr rfl (g := fun i => (if i = 7 then gcmX ^ i else 0) + (if i = 2 then gcmX ^ i else 0) +
      (if i = 1 then gcmX ^ i else 0) + (if i = 0 then gcmX ^ i else 0))]
    · simp only [Finset.sum_add_distrib, Finset.sum_ite_eq', Finset.mem_range]
      norm_num
    · intro i hi
      rw [e i (Finset.mem_range.1 hi)]
      by_cases h7 : i = 7
      · subst h7; simp
      · by_cases h2 : i = 2
        · subst h2; simp
        · by_cases h1 : i = 1
          · subst h1; simp
          · by_cases h0 : i = 0
            · subst h0; simp
            · simp [h7, h2, h1, h0]
  unfold mulX
  split
  · rename_i h
    rw [hhalf, if_neg (by omega), add_zero]
  · rename_i h
    rw [element_xor, hhalf, hr, if_pos (by omega), add_assoc, gcm_two, add_zero]

theorem element_gcmMul (x i z v : Nat) (hv : v < 2 ^ 128) :
    element (gcmMul x i z v) = element z + (∑ k ∈ Finset.range i, if x.testBit (i - 1 - k) then gcmX ^ k else 0) * element v := by
  induction i generalizing z v with
  | zero => simp [gcmMul]
  | succ i ih =>
    rw [gcmMul_succ, ih _ _ (mulX_lt hv), element_mulX hv, Finset.sum_range_succ', add_mul]
    have e1 : element (if x.testBit i then z ^^^ v else z) = element z + (if x.testBit (i + 1 - 1 - 0) then gcmX ^ 0 else 0) * element v := by
      simp only [Nat.add_sub_cancel, Nat.sub_zero, pow_zero]
      split
      · rw [element_xor, one_mul]
      · rw [zero_mul, add_zero]
    have e2 : ∑ k ∈ Finset.range i, (if x.testBit (i + 1 - 1 - (k + 1)) then gcmX ^ (k + 1) else 0) =
        (∑ k ∈ Finset.range i, if x.testBit (i - 1 - k) then gcmX ^ k else 0) * gcmX := by
      rw [Finset.sum_mul]
      refine Finset.sum_congr rfl fun k _ => ?_
      rw [show i + 1 - 1 - (k + 1) = i - 1 - k by omega, pow_succ]
      split <;> simp
    rw [e1, e2]
    ring

/-- The product of blocks is the one of polynomials. -/
theorem element_mult {x v : Nat} (hv : v < 2 ^ 128) : element (mult x v) = element x * element v := by
  rw [mult, element_gcmMul x 128 0 v hv, element_zero, zero_add]
  rfl

/-! ## Blocks -/

theorem beNat_testBit (b : Bytes) (k : Nat) (h : k < 8 * b.length) :
    (beNat b).testBit k = (b.getD (b.length - 1 - k / 8) 0).toNat.testBit (k % 8) := by
  induction b with
  | nil => simp at h
  | cons x b ih =>
    rw [beNat_cons, show 256 ^ b.length = 2 ^ (8 * b.length) by rw [Nat.pow_mul], Nat.mul_comm,
      Nat.testBit_two_pow_mul_add _ (by rw [Nat.pow_mul]; exact beNat_lt b)]
    simp only [List.length_cons] at h ⊢
    by_cases hk : k < 8 * b.length
    · rw [if_pos hk, ih hk, show b.length + 1 - 1 - k / 8 = (b.length - 1 - k / 8) + 1 by omega, List.getD_cons_succ]
    · rw [if_neg hk, show b.length + 1 - 1 - k / 8 = 0 by omega, List.getD_cons_zero, show k - 8 * b.length = k % 8 by omega]

theorem blockBit_eq {b : Bytes} (hb : b.length = 16) {i : Nat} (hi : i < 128) : (beNat b).testBit (127 - i) = blockBit b i := by
  rw [beNat_testBit b _ (by omega), blockBit, hb, show 16 - 1 - (127 - i) / 8 = i / 8 by omega, show (127 - i) % 8 = 7 - i % 8 by omega]

theorem element_block {b : Bytes} (hb : b.length = 16) : AdjoinRoot.mk gcmModulus (blockPoly b) = element (beNat b) := by
  unfold blockPoly element
  rw [map_sum]
  refine Finset.sum_congr rfl fun i hi => ?_
  rw [blockBit_eq hb (Finset.mem_range.1 hi)]
  split
  · rw [map_pow, AdjoinRoot.mk_X]
  · rw [map_zero]

theorem blockPoly_coeff (b : Bytes) (i : Nat) : (blockPoly b).coeff i = if i < 128 ∧ blockBit b i then 1 else 0 := by
  unfold blockPoly
  rw [finset_sum_coeff]
  have e (k : Nat) : (if blockBit b k then (X : (ZMod 2)[X]) ^ k else 0).coeff i = if i = k then (if blockBit b i then 1 else 0) else 0 := by
    by_cases h : i = k
    · subst h
      split <;> simp
    · rw [if_neg h]
      split
      · rw [coeff_X_pow, if_neg h]
      · rw [coeff_zero]
  rw [Finset.sum_congr rfl fun k _ => e k, Finset.sum_ite_eq]
  by_cases h : i < 128
  · simp [h]
  · simp [h]

theorem blockPoly_inj {b c : Bytes} (hb : b.length = 16) (hc : c.length = 16) (h : blockPoly b = blockPoly c) : b = c := by
  apply beNat_inj (hb.trans hc.symm)
  apply Nat.eq_of_testBit_eq
  intro k
  by_cases hk : k < 128
  · have e := congrArg (fun p => p.coeff (127 - k)) h
    simp only [blockPoly_coeff, show 127 - k < 128 by omega, true_and] at e
    have hb' := blockBit_eq hb (i := 127 - k) (by omega)
    have hc' := blockBit_eq hc (i := 127 - k) (by omega)
    rw [show 127 - (127 - k) = k by omega] at hb' hc'
    rw [hb', hc']
    cases h1 : blockBit b (127 - k) <;> cases h2 : blockBit c (127 - k) <;> simp [h1, h2] at e ⊢
  · have l (b : Bytes) (hb : b.length = 16) : (beNat b).testBit k = false :=
      Nat.testBit_lt_two_pow (Nat.lt_of_lt_of_le (by have := beNat_lt b; rwa [hb] at this)
        (show 256 ^ 16 ≤ 2 ^ k by rw [show 256 ^ 16 = 2 ^ 128 by decide]; exact Nat.pow_le_pow_right (by decide) (by omega)))
    rw [l b hb, l c hc]

theorem gcmModulus_degree : gcmModulus.Monic ∧ gcmModulus.degree = (128 : ℕ) := by
  have hq : (X ^ 7 + X ^ 2 + X + 1 : (ZMod 2)[X]).degree < (128 : ℕ) := by
    rw [degree_lt_iff_coeff_zero]
    intro m hm
    simp only [coeff_add, coeff_X_pow, coeff_X, coeff_one]
    rw [if_neg (by omega), if_neg (by omega), if_neg (by omega), if_neg (by omega)]
    simp
  have e : gcmModulus = X ^ 128 + (X ^ 7 + X ^ 2 + X + 1) := by rw [gcmModulus_eq]; simp only [add_assoc]
  rw [e]
  refine ⟨monic_X_pow_add hq, ?_⟩
  rw [degree_add_eq_left_of_degree_lt (by rw [degree_X_pow]; exact hq), degree_X_pow]

theorem blockPoly_degree (b : Bytes) : (blockPoly b).degree < (128 : ℕ) := by
  rw [degree_lt_iff_coeff_zero]
  intro m hm
  rw [blockPoly_coeff, if_neg (by omega)]

theorem degree_sub_below {p q : (ZMod 2)[X]} {n : ℕ} (hp : p.degree < n) (hq : q.degree < n) : (p - q).degree < n :=
  lt_of_le_of_lt (degree_sub_le _ _) (max_lt hp hq)

theorem blockPoly_mod {b c : Bytes} (hb : b.length = 16) (hc : c.length = 16) (h : gcmModulus ∣ blockPoly b - blockPoly c) : b = c := by
  apply blockPoly_inj hb hc
  apply sub_eq_zero.1
  by_contra h0
  refine gcmModulus_degree.1.not_dvd_of_degree_lt h0 ?_ h
  rw [gcmModulus_degree.2]
  exact degree_sub_below (blockPoly_degree b) (blockPoly_degree c)

/-! ## The hash -/

theorem element_horner {h : Nat} (hh : h < 2 ^ 128) (cs : List Nat) (y : Nat) :
    element (cs.foldl (fun y x => gcmMul (y ^^^ x) 128 0 h) y) =
      element y * element h ^ cs.length + ∑ i ∈ Finset.range cs.length, element (cs.getD i 0) * element h ^ (cs.length - i) := by
  induction cs generalizing y with
  | nil => simp
  | cons c cs ih =>
    rw [List.foldl_cons, ih, List.length_cons, Finset.sum_range_succ']
    have e : element (gcmMul (y ^^^ c) 128 0 h) = (element y + element c) * element h := by
      rw [← element_xor]; exact element_mult hh
    rw [e]
    simp only [List.getD_cons_succ, List.getD_cons_zero, Nat.add_sub_add_right, Nat.sub_zero]
    ring

theorem element_ghash {h : Nat} (hh : h < 2 ^ 128) (cs : List Nat) :
    element (ghash h cs) = ∑ i ∈ Finset.range cs.length, element (cs.getD i 0) * element h ^ (cs.length - i) := by
  rw [ghash, element_horner hh, element_zero, zero_mul, zero_add]

theorem beNat_block_lt {b : Bytes} (h : b.length = 16) : beNat b < 2 ^ 128 := by
  have := beNat_lt b
  rwa [h, show 256 ^ 16 = 2 ^ 128 by decide] at this

/-- `GHASH`. -/
theorem ghash_iff {h : Bytes} (hh : h.length = 16) {blocks : List Bytes} (hb : ∀ b ∈ blocks, b.length = 16) {y : Bytes} :
    Ghash h blocks y ↔ y = natBytes 16 (ghash (beNat h) (blocks.map beNat)) := by
  have hlt := ghash_lt (beNat_block_lt hh) (blocks.map beNat)
  have he : AdjoinRoot.mk gcmModulus (blockPoly (natBytes 16 (ghash (beNat h) (blocks.map beNat)))) =
      AdjoinRoot.mk gcmModulus (∑ i ∈ Finset.range blocks.length, blockPoly (blocks.getD i []) * blockPoly h ^ (blocks.length - i)) := by
    rw [element_block (natBytes_length _ _), beNat_natBytes (by rw [show 256 ^ 16 = 2 ^ 128 by decide]; exact hlt),
      element_ghash (beNat_block_lt hh), map_sum, List.length_map]
    refine Finset.sum_congr rfl fun i hi => ?_
    have hi := Finset.mem_range.1 hi
    rw [map_mul, map_pow, element_block hh]
    have hg : blocks.getD i [] = blocks[i] := by simp [hi]
    have hg' : (blocks.map beNat).getD i 0 = beNat blocks[i] := by simp [hi]
    rw [hg, hg', element_block (hb _ (List.getElem_mem hi))]
  constructor
  · rintro ⟨hl, hd⟩
    refine blockPoly_mod hl (natBytes_length _ _) ?_
    rw [← AdjoinRoot.mk_eq_mk] at hd ⊢
    rw [hd, he]
  · rintro rfl
    exact ⟨natBytes_length _ _, AdjoinRoot.mk_eq_mk.1 he⟩

/-! ## Texts in blocks -/

theorem flatten_inj16 {p q : List Bytes} (hp : ∀ x ∈ p, x.length = 16) (hq : ∀ x ∈ q, x.length = 16) (h : p.flatten = q.flatten) : p = q := by
  induction p generalizing q with
  | nil =>
    match q, hq with
    | [], _ => rfl
    | x :: q, hq =>
      have e := congrArg List.length h
      simp [hq x (.head _)] at e
      omega
  | cons y p ih =>
    match q, hq with
    | [], _ =>
      have e := congrArg List.length h
      simp [hp y (.head _)] at e
    | x :: q, hq =>
      rw [List.flatten_cons, List.flatten_cons] at h
      obtain ⟨h1, h2⟩ := List.append_inj h ((hp y (.head _)).trans (hq x (.head _)).symm)
      rw [h1, ih (fun x hx => hp x (.tail _ hx)) (fun x hx => hq x (.tail _ hx)) h2]

theorem flatten_length16 {p : List Bytes} (hp : ∀ x ∈ p, x.length = 16) : p.flatten.length = 16 * p.length := by
  induction p with
  | nil => rfl
  | cons y p ih =>
    rw [List.flatten_cons, List.length_append, hp y (.head _), ih fun x hx => hp x (.tail _ hx), List.length_cons]
    omega

theorem chunks_unique {b : Bytes} {p q : List Bytes} (hp : Chunks b p) (hq : Chunks b q) : p = q := by
  obtain ⟨h1, z, hz, e1⟩ := hp
  obtain ⟨h2, z', hz', e2⟩ := hq
  have l1 := congrArg List.length e1
  have l2 := congrArg List.length e2
  rw [flatten_length16 h1, List.length_append, List.length_replicate] at l1
  rw [flatten_length16 h2, List.length_append, List.length_replicate] at l2
  have : z = z' := by omega
  subst this
  exact flatten_inj16 h1 h2 (e1.trans e2.symm)

theorem chunks_exist (n : Nat) (b : Bytes) (h : b.length ≤ n) : ∃ p, Chunks b p ∧ p.map beNat = gcmBlocks n b := by
  induction n generalizing b with
  | zero =>
    have : b = [] := List.length_eq_zero_iff.1 (by omega)
    subst this
    exact ⟨[], ⟨fun _ h => (nomatch h), 0, by decide, rfl⟩, rfl⟩
  | succ n ih =>
    match b, h with
    | [], _ => exact ⟨[], ⟨fun _ h => (nomatch h), 0, by decide, rfl⟩, rfl⟩
    | x :: b, h =>
      obtain ⟨p, ⟨hp, z, hz, e⟩, hm⟩ := ih ((x :: b).drop 16) (by simp at h ⊢; omega)
      refine ⟨((x :: b).take 16 ++ List.replicate (16 - (x :: b).length) 0) :: p, ⟨?_, ?_⟩, ?_⟩
      · intro y hy
        rcases List.mem_cons.1 hy with rfl | hy
        · simp only [List.length_append, List.length_take, List.length_replicate]; omega
        · exact hp y hy
      · by_cases hl : 16 ≤ (x :: b).length
        · refine ⟨z, hz, ?_⟩
          rw [List.flatten_cons, e, show 16 - (x :: b).length = 0 by omega, List.replicate_zero, List.append_nil, ← List.append_assoc,
            List.take_append_drop]
        · have hd : (x :: b).drop 16 = [] := List.drop_eq_nil_of_le (by omega)
          rw [hd, List.nil_append] at e
          have hz0 : z = 0 := by
            have l := congrArg List.length e
            rw [flatten_length16 hp, List.length_replicate] at l
            omega
          rw [hz0] at e
          refine ⟨16 - (x :: b).length, by simp only [List.length_cons]; omega, ?_⟩
          rw [List.flatten_cons, e, List.replicate_zero, List.append_nil, List.take_of_length_le (by omega)]
      · rw [List.map_cons, hm]
        rfl

theorem chunks_map {b : Bytes} {p : List Bytes} (h : Chunks b p) : p.map beNat = gcmBlocks b.length b := by
  obtain ⟨q, hq, e⟩ := chunks_exist b.length b (Nat.le_refl _)
  rw [chunks_unique h hq, e]

theorem beNat_append (a b : Bytes) : beNat (a ++ b) = beNat a * 256 ^ b.length + beNat b := by
  rw [← beNat_from]
  simp only [beNat, List.foldl_append]

theorem natBytes_beNat {n : Nat} {b : Bytes} (h : b.length = n) : natBytes n (beNat b) = b :=
  beNat_inj (by rw [natBytes_length, h]) (beNat_natBytes (h ▸ beNat_lt b))

theorem lengthBlock_iff {m n : Nat} (hn : 8 * n < 2 ^ 64) {l : Bytes} :
    LengthBlock m n l ↔ l.length = 16 ∧ beNat l = (8 * m) <<< 64 ||| 8 * n := by
  rw [← Nat.shiftLeft_add_eq_or_of_lt hn, Nat.shiftLeft_eq]
  have split (hl : l.length = 16) : beNat l = beNat (l.take 8) * 2 ^ 64 + beNat (l.drop 8) ∧ beNat (l.drop 8) < 2 ^ 64 := by
    have h8 : (l.drop 8).length = 8 := by rw [List.length_drop, hl]
    have e := beNat_append (l.take 8) (l.drop 8)
    rw [List.take_append_drop, h8] at e
    have hlt := beNat_lt (l.drop 8)
    rw [h8] at hlt
    exact ⟨e, hlt⟩
  constructor
  · rintro ⟨hl, h1, h2⟩
    have h1 : beNat (l.take 8) = 8 * m := h1
    have h2 : beNat (l.drop 8) = 8 * n := h2
    exact ⟨hl, by rw [(split hl).1, h1, h2]⟩
  · rintro ⟨hl, h⟩
    obtain ⟨e, hlt⟩ := split hl
    rw [h] at e
    refine ⟨hl, ?_, ?_⟩
    · show beNat (l.take 8) = 8 * m
      omega
    · show beNat (l.drop 8) = 8 * n
      omega

/-- The counter block after some more. -/
def counterNat (n m : Nat) : Nat := n / 2 ^ 32 * 2 ^ 32 + (n + m) % 2 ^ 32

theorem counterNat_inc (n m : Nat) : counterNat (inc32 n) m = counterNat n (m + 1) := by
  unfold counterNat inc32
  omega

theorem counterNat_lt {n : Nat} (h : n < 2 ^ 128) (m : Nat) : counterNat n m < 2 ^ 128 := by
  unfold counterNat
  omega

theorem counter_iff {j : Bytes} (hj : j.length = 16) {m : Nat} {c : Bytes} :
    CounterBlock j m c ↔ c = natBytes 16 (counterNat (beNat j) m) := by
  have split {l : Bytes} (hl : l.length = 16) : beNat l = beNat (l.take 12) * 2 ^ 32 + beNat (l.drop 12) ∧ beNat (l.drop 12) < 2 ^ 32 := by
    have h4 : (l.drop 12).length = 4 := by rw [List.length_drop, hl]
    have e := beNat_append (l.take 12) (l.drop 12)
    rw [List.take_append_drop, h4] at e
    have hlt := beNat_lt (l.drop 12)
    rw [h4] at hlt
    exact ⟨e, hlt⟩
  obtain ⟨ej, lj⟩ := split hj
  have key {c : Bytes} (hc : c.length = 16) : beNat c = counterNat (beNat j) m ↔
      beNat (c.take 12) = beNat (j.take 12) ∧ beNat (c.drop 12) = (beNat (j.drop 12) + m) % 2 ^ 32 := by
    obtain ⟨ec, lc⟩ := split hc
    rw [ec, ej]
    unfold counterNat
    omega
  constructor
  · rintro ⟨hc, h1, h2⟩
    rw [← (key hc).2 ⟨by rw [h1], h2⟩, natBytes_beNat hc]
  · rintro rfl
    have hc := natBytes_length 16 (counterNat (beNat j) m)
    have hv : beNat (natBytes 16 (counterNat (beNat j) m)) = counterNat (beNat j) m :=
      beNat_natBytes (by rw [show 256 ^ 16 = 2 ^ 128 by decide]; exact counterNat_lt (beNat_block_lt hj) m)
    obtain ⟨h1, h2⟩ := (key hc).1 hv
    exact ⟨hc, beNat_inj (by rw [List.length_take, List.length_take, hc, hj]) h1, h2⟩

theorem stream_get (keys : List Columns) (n c i : Nat) (h : i < 16 * n) :
    (gcmStream keys n c).getD i 0 = (natBytes 16 (aesBlock keys (counterNat c (i / 16)))).getD (i % 16) 0 := by
  induction n generalizing c i with
  | zero => omega
  | succ n ih =>
    rw [gcmStream, List.getD_eq_getElem?_getD]
    by_cases hi : i < 16
    · rw [List.getElem?_append_left (by rw [natBytes_length]; exact hi), show i / 16 = 0 by omega, show i % 16 = i by omega,
        show counterNat c 0 = c by unfold counterNat; omega, List.getD_eq_getElem?_getD]
    · rw [List.getElem?_append_right (by rw [natBytes_length]; omega), natBytes_length, ← List.getD_eq_getElem?_getD,
        ih _ _ (by omega), counterNat_inc, show (i - 16) / 16 + 1 = i / 16 by omega, show (i - 16) % 16 = i % 16 by omega]

/-! ## The parts of the encryption -/

theorem firstBlock_iff {h nonce : Bytes} (hh : h.length = 16) (h12 : nonce.length ≠ 12) (hn : 8 * nonce.length < 2 ^ 64) {j : Bytes} :
    FirstBlock h nonce j ↔ j = natBytes 16 (gcmFirst (beNat h) nonce) := by
  have e : gcmFirst (beNat h) nonce = ghash (beNat h) (gcmBlocks nonce.length nonce ++ [8 * nonce.length]) := by
    rw [gcmFirst, if_neg h12]
  have key {blocks : List Bytes} {l : Bytes} (hb : Chunks nonce blocks) (hl : LengthBlock 0 nonce.length l) :
      Ghash h (blocks ++ [l]) j ↔ j = natBytes 16 (gcmFirst (beNat h) nonce) := by
    obtain ⟨l1, l2⟩ := (lengthBlock_iff hn).1 hl
    rw [ghash_iff hh (by
      intro b hb'
      rcases List.mem_append.1 hb' with hb' | hb'
      · exact hb.1 b hb'
      · rw [List.mem_singleton.1 hb']; exact l1), List.map_append, chunks_map hb, e, List.map_singleton, l2]
    simp only [Nat.mul_zero, Nat.zero_shiftLeft, Nat.zero_or]
  constructor
  · rintro ⟨blocks, l, hb, hl, hg⟩
    exact (key hb hl).1 hg
  · intro hj
    obtain ⟨blocks, hb, _⟩ := chunks_exist nonce.length nonce (Nat.le_refl _)
    have hl : LengthBlock 0 nonce.length (natBytes 16 ((8 * 0) <<< 64 ||| 8 * nonce.length)) :=
      (lengthBlock_iff hn).2 ⟨natBytes_length _ _, beNat_natBytes (by
        simp only [Nat.mul_zero, Nat.zero_shiftLeft, Nat.zero_or]; omega)⟩
    exact ⟨blocks, _, hb, hl, (key hb hl).2 hj⟩

theorem lengths_exist {m n : Nat} (hm : 8 * m < 2 ^ 64) (hn : 8 * n < 2 ^ 64) : ∃ l, LengthBlock m n l := by
  refine ⟨natBytes 16 ((8 * m) <<< 64 ||| 8 * n), (lengthBlock_iff hn).2 ⟨natBytes_length _ _, beNat_natBytes ?_⟩⟩
  rw [← Nat.shiftLeft_add_eq_or_of_lt hn, Nat.shiftLeft_eq]
  omega

theorem zipWith_getD {a b : Bytes} {i : Nat} (ha : i < a.length) (hb : i < b.length) :
    (List.zipWith (· ^^^ ·) a b).getD i 0 = a.getD i 0 ^^^ b.getD i 0 := by
  simp [List.getD_eq_getElem?_getD, ha, hb]

theorem ext_getD {a b : Bytes} (hl : a.length = b.length) (h : ∀ i < a.length, a.getD i 0 = b.getD i 0) : a = b := by
  refine List.ext_getElem hl fun i h1 h2 => ?_
  have := h i h1
  simpa [List.getD_eq_getElem?_getD, h1, h2] using this

end Rops
