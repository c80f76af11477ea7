import Verif.Spec.Sha
import Verif.Spec.Gcm
import Verif.Lemmas.Hashing
/-! The hash of the model against FIPS 180-4. -/

namespace Rops
open Spec

/-! ## Constants -/

/-- The first eighty primes. -/
def primeTable : List Nat := [2, 3, 5, 7, 11, 13, 17, 19, 23, 29, 31, 37, 41, 43, 47, 53, 59, 61, 67, 71, 73, 79, 83, 89, 97, 101, 103, 107, 109, 113, 127, 131, 137, 139, 149, 151, 157, 163, 167, 173, 179, 181, 191, 193, 197, 199, 211, 223, 227, 229, 233, 239, 241, 251, 257, 263, 269, 271, 277, 281, 283, 293, 307, 311, 313, 317, 331, 337, 347, 349, 353, 359, 367, 373, 379, 383, 389, 397, 401, 409]

theorem firstPrimes_eq : firstPrimes = primeTable := by decide +kernel

theorem root_unique {n p : Nat} {k k' : ShaWord} (hn : n ≠ 0) (h : FractionOfRoot n p k) (h' : FractionOfRoot n p k') : k = k' := by
  obtain ⟨a, h1, h2⟩ := h
  obtain ⟨a', h1', h2'⟩ := h'
  have key {u v X : Nat} (hu : X < (u + 1) ^ n) (hv : v ^ n ≤ X) : v ≤ u := by
    apply Nat.le_of_not_lt
    intro hlt
    have := Nat.pow_le_pow_left (show u + 1 ≤ v by omega) n
    omega
  have e : a * 2 ^ 64 + k.toNat = a' * 2 ^ 64 + k'.toNat := Nat.le_antisymm (key h2' h1) (key h2 h1')
  apply BitVec.eq_of_toNat_eq
  have := k.isLt
  have := k'.isLt
  omega

/-- The root lies in the interval, for one of the first integral parts. -/
def rootCheck (n p k : Nat) : Bool :=
  (List.range 8).any fun a => decide ((a * 2 ^ 64 + k) ^ n ≤ p * 2 ^ (64 * n) ∧ p * 2 ^ (64 * n) < (a * 2 ^ 64 + k + 1) ^ n)

theorem rootCheck_sound {n p : Nat} {k : ShaWord} (h : rootCheck n p k.toNat = true) : FractionOfRoot n p k := by
  obtain ⟨a, _, ha⟩ := List.any_eq_true.1 h
  exact ⟨a, of_decide_eq_true ha⟩

/-- The constants of the model as words. -/
def modelConstant (t : Nat) : ShaWord := BitVec.ofNat 64 (shaConstants.getD t 0)

/-- The initial hash value of the model as words. -/
def modelInitial (t : Nat) : ShaWord :=
  BitVec.ofNat 64 ([shaInit.a, shaInit.b, shaInit.c, shaInit.d, shaInit.e, shaInit.f, shaInit.g, shaInit.h].getD t 0)

theorem modelConstants : ShaConstants modelConstant := by
  have h : ∀ t < 80, rootCheck 3 (primeTable.getD t 0) (modelConstant t).toNat = true ∧
      primeTable[t]? = some (primeTable.getD t 0) := by decide +kernel
  intro t ht
  refine ⟨_, ?_, rootCheck_sound (h t ht).1⟩
  rw [firstPrimes_eq]
  exact (h t ht).2

theorem modelInitials : ShaInitial modelInitial := by
  have h : ∀ t < 8, rootCheck 2 (primeTable.getD t 0) (modelInitial t).toNat = true ∧
      primeTable[t]? = some (primeTable.getD t 0) := by decide +kernel
  intro t ht
  refine ⟨_, ?_, rootCheck_sound (h t ht).1⟩
  rw [firstPrimes_eq]
  exact (h t ht).2

theorem constants_unique {K : Nat → ShaWord} (h : ShaConstants K) {t : Nat} (ht : t < 80) : K t = modelConstant t := by
  obtain ⟨p, hp, h1⟩ := h t ht
  obtain ⟨q, hq, h2⟩ := modelConstants t ht
  cases hp.symm.trans hq
  exact root_unique (by decide) h1 h2

theorem initial_unique {H : Nat → ShaWord} (h : ShaInitial H) {t : Nat} (ht : t < 8) : H t = modelInitial t := by
  obtain ⟨p, hp, h1⟩ := h t ht
  obtain ⟨q, hq, h2⟩ := modelInitials t ht
  cases hp.symm.trans hq
  exact root_unique (by decide) h1 h2

theorem constant_list {K : Nat → ShaWord} (h : ShaConstants K) : shaConstants = (List.range 80).map fun t => (K t).toNat := by
  have e : shaConstants = (List.range 80).map fun t => (modelConstant t).toNat := by decide +kernel
  rw [e]
  exact List.map_congr_left fun t ht => by rw [constants_unique h (List.mem_range.1 ht)]

/-! ## Words -/

/-- A hash value as the model has it. -/
def wordsOf (H : Nat → ShaWord) : ShaWords :=
  ⟨(H 0).toNat, (H 1).toNat, (H 2).toNat, (H 3).toNat, (H 4).toNat, (H 5).toNat, (H 6).toNat, (H 7).toNat⟩

theorem wordsOf_initial {H : Nat → ShaWord} (h : ShaInitial H) : wordsOf H = shaInit := by
  have e : wordsOf modelInitial = shaInit := by decide +kernel
  rw [← e]
  unfold wordsOf
  rw [initial_unique h (t := 0) (by decide), initial_unique h (t := 1) (by decide), initial_unique h (t := 2) (by decide),
    initial_unique h (t := 3) (by decide), initial_unique h (t := 4) (by decide), initial_unique h (t := 5) (by decide),
    initial_unique h (t := 6) (by decide), initial_unique h (t := 7) (by decide)]

theorem rotr_eq (x : ShaWord) {n : Nat} (h : n < 64) : rotr n x.toNat = (x.rotateRight n).toNat := by
  rw [BitVec.toNat_rotateRight, Nat.mod_eq_of_lt h]
  rfl

theorem bigSigma0_eq (x : ShaWord) : shaSum0 x.toNat = (bigSigma0 x).toNat := by
  simp only [shaSum0, bigSigma0, BitVec.toNat_xor, rotr_eq x (show 28 < 64 by decide), rotr_eq x (show 34 < 64 by decide),
    rotr_eq x (show 39 < 64 by decide)]

theorem bigSigma1_eq (x : ShaWord) : shaSum1 x.toNat = (bigSigma1 x).toNat := by
  simp only [shaSum1, bigSigma1, BitVec.toNat_xor, rotr_eq x (show 14 < 64 by decide), rotr_eq x (show 18 < 64 by decide),
    rotr_eq x (show 41 < 64 by decide)]

theorem smallSigma0_eq (x : ShaWord) : shaSigma0 x.toNat = (smallSigma0 x).toNat := by
  simp only [shaSigma0, smallSigma0, BitVec.toNat_xor, rotr_eq x (show 1 < 64 by decide), rotr_eq x (show 8 < 64 by decide),
    BitVec.toNat_ushiftRight]

theorem smallSigma1_eq (x : ShaWord) : shaSigma1 x.toNat = (smallSigma1 x).toNat := by
  simp only [shaSigma1, smallSigma1, BitVec.toNat_xor, rotr_eq x (show 19 < 64 by decide), rotr_eq x (show 61 < 64 by decide),
    BitVec.toNat_ushiftRight]

theorem choose_eq (x y z : ShaWord) : shaCh x.toNat y.toNat z.toNat = (chooseWord x y z).toNat := by
  have h : x.toNat ^^^ (2 ^ 64 - 1) = (~~~x).toNat := by
    rw [← BitVec.xor_allOnes, BitVec.toNat_xor, BitVec.toNat_allOnes]
  rw [shaCh, h]
  simp only [chooseWord, BitVec.toNat_xor, BitVec.toNat_and]

theorem majority_eq (x y z : ShaWord) : shaMaj x.toNat y.toNat z.toNat = (majorityWord x y z).toNat := by
  simp only [shaMaj, majorityWord, BitVec.toNat_xor, BitVec.toNat_and]

theorem round_eq (K W H : Nat → ShaWord) (t : Nat) :
    (wordsOf (workingVariables K W H t)).round (K t).toNat (W t).toNat = wordsOf (workingVariables K W H (t + 1)) := by
  simp only [wordsOf, ShaWords.round, workingVariables, bigSigma0_eq, bigSigma1_eq, choose_eq, majority_eq, addWord]
  simp only [if_true, if_neg (show ¬ (1 : Nat) = 0 by decide), if_neg (show ¬ (2 : Nat) = 0 by decide),
    if_neg (show ¬ (3 : Nat) = 0 by decide), if_neg (show ¬ (4 : Nat) = 0 by decide), if_neg (show ¬ (5 : Nat) = 0 by decide),
    if_neg (show ¬ (6 : Nat) = 0 by decide), if_neg (show ¬ (7 : Nat) = 0 by decide), if_neg (show ¬ (1 : Nat) = 4 by decide),
    if_neg (show ¬ (2 : Nat) = 4 by decide), if_neg (show ¬ (3 : Nat) = 4 by decide), if_neg (show ¬ (5 : Nat) = 4 by decide),
    if_neg (show ¬ (6 : Nat) = 4 by decide), if_neg (show ¬ (7 : Nat) = 4 by decide), BitVec.toNat_add]
  congr 1
  all_goals simp only [Nat.add_mod, Nat.mod_mod, Nat.add_assoc]
  all_goals omega

/-! ## Rounds -/

/-- What the model keeps of the message schedule: the next sixteen words, as far as there are eighty. -/
def Window (W : Nat → ShaWord) (t : Nat) (ws : List Nat) : Prop :=
  ws.length = 16 ∧ ∀ i < 16, t + i < 80 → ws[i]? = some (W (t + i)).toNat

theorem nextWord_eq {block : Bytes} {W : Nat → ShaWord} (h : Schedule block W) {t : Nat} (ht : t + 16 < 80) {ws : List Nat}
    (hw : Window W t ws) : nextWord ws = (W (t + 16)).toNat := by
  obtain ⟨hl, hw⟩ := hw
  match ws, hl with
  | [w0, w1, w2, w3, w4, w5, w6, w7, w8, w9, w10, w11, w12, w13, w14, w15], _ =>
    have h0 := Option.some.inj (hw 0 (by decide) (by omega))
    have h1 := Option.some.inj (hw 1 (by decide) (by omega))
    have h9 := Option.some.inj (hw 9 (by decide) (by omega))
    have h14 := Option.some.inj (hw 14 (by decide) (by omega))
    rw [h.next (t + 16) (by omega) ht]
    simp only [nextWord]
    rw [h0, h1, h9, h14, smallSigma0_eq, smallSigma1_eq, show t + 16 - 2 = t + 14 by omega, show t + 16 - 7 = t + 9 by omega,
      show t + 16 - 15 = t + 1 by omega, show t + 16 - 16 = t + 0 by omega]
    simp only [addWord, BitVec.toNat_add]
    omega

theorem window_next {block : Bytes} {W : Nat → ShaWord} (h : Schedule block W) {t w : Nat} {ws : List Nat}
    (hw : Window W t (w :: ws)) : Window W (t + 1) (ws ++ [nextWord (w :: ws)]) := by
  have hl : ws.length = 15 := Nat.succ.inj hw.1
  refine ⟨by simp [hl], fun i hi ht => ?_⟩
  by_cases h15 : i < 15
  · rw [List.getElem?_append_left (by omega), ← List.getElem?_cons_succ (a := w), hw.2 (i + 1) (by omega) (by omega),
      show t + (i + 1) = t + 1 + i by omega]
  · have : i = 15 := by omega
    subst this
    rw [List.getElem?_append_right (by omega), hl, nextWord_eq h (by omega) hw, show t + 16 = t + 1 + 15 by omega]
    rfl

theorem shaRounds_eq {block : Bytes} {K W H : Nat → ShaWord} (h : Schedule block W) :
    ∀ (n t : Nat) (ws : List Nat), t + n = 80 → Window W t ws →
    shaRounds ((List.range' t n).map fun t => (K t).toNat) ws (wordsOf (workingVariables K W H t)) =
      wordsOf (workingVariables K W H 80)
  | 0, t, ws, ht, _ => by rw [show t = 80 by omega]; rfl
  | n + 1, t, ws, ht, hw => by
    match ws, hw with
    | w :: ws, hw =>
      have h0 : w = (W t).toNat := Option.some.inj (hw.2 0 (by decide) (by omega))
      rw [List.range'_succ, List.map_cons, shaRounds]
      rw [h0, round_eq, ← h0]
      exact shaRounds_eq h n (t + 1) _ (by omega) (window_next h hw)

theorem wordOfBytes_eq {b : Bytes} {t : Nat} (hb : 8 * t + 8 ≤ b.length) :
    (wordOfBytes b t).toNat = beNat ((b.drop (8 * t)).take 8) := by
  have hl : ((b.drop (8 * t)).take 8).length = 8 := by simp; omega
  have hg (i : Nat) (hi : i < 8) : b.getD (8 * t + i) 0 = ((b.drop (8 * t)).take 8).getD i 0 := by
    rw [List.getD_eq_getElem?_getD, List.getD_eq_getElem?_getD, List.getElem?_take, if_pos hi, List.getElem?_drop]
  unfold wordOfBytes
  simp only [List.range, List.range.loop, List.foldl_cons, List.foldl_nil]
  rw [hg 0 (by decide), hg 1 (by decide), hg 2 (by decide), hg 3 (by decide), hg 4 (by decide), hg 5 (by decide), hg 6 (by decide), hg 7 (by decide)]
  generalize (b.drop (8 * t)).take 8 = c at hl
  match c, hl with
  | [c0, c1, c2, c3, c4, c5, c6, c7], _ =>
    have h (x : UInt8) : x.toNat < 256 := x.toNat_lt
    have := h c0; have := h c1; have := h c2; have := h c3; have := h c4; have := h c5; have := h c6; have := h c7
    simp only [List.getD_cons_zero, List.getD_cons_succ, BitVec.toNat_add, BitVec.toNat_mul, BitVec.toNat_ofNat, beNat, List.foldl_cons,
      List.foldl_nil, show BitVec.toNat (256 : BitVec 64) = 256 from rfl, show BitVec.toNat (0 : BitVec 64) = 0 from rfl]
    omega

theorem shaBlock_get (n : Nat) (b : Bytes) (t : Nat) (h : t < n) : (shaBlock n b)[t]? = some (beNat ((b.drop (8 * t)).take 8)) := by
  induction n generalizing b t with
  | zero => omega
  | succ n ih =>
    cases t with
    | zero => rfl
    | succ t =>
      rw [shaBlock, List.getElem?_cons_succ, ih _ _ (by omega), List.drop_drop, show 8 + 8 * t = 8 * (t + 1) by omega]

theorem shaBlock_length (n : Nat) (b : Bytes) : (shaBlock n b).length = n := by
  induction n generalizing b with
  | zero => rfl
  | succ n ih => simp [shaBlock, ih]

/-- One block. -/
theorem compress_eq {K H H' : Nat → ShaWord} (hK : ShaConstants K) {block : Bytes} (hb : block.length = 128)
    (h : HashStep K H block H') : (wordsOf H).compress block = wordsOf H' := by
  obtain ⟨W, hW, h⟩ := h
  have hwin : Window W 0 (shaBlock 16 block) := by
    refine ⟨shaBlock_length _ _, fun i hi _ => ?_⟩
    rw [shaBlock_get 16 block i hi, Nat.zero_add, hW.start i hi, wordOfBytes_eq (by omega)]
  have e := shaRounds_eq (K := K) (H := H) hW 80 0 _ rfl hwin
  rw [← List.range_eq_range', ← constant_list hK] at e
  have e : shaRounds shaConstants (shaBlock 16 block) (wordsOf H) = _ := e
  simp only [ShaWords.compress, e]
  simp only [wordsOf, addWord, h 0 (by decide), h 1 (by decide), h 2 (by decide), h 3 (by decide), h 4 (by decide), h 5 (by decide),
    h 6 (by decide), h 7 (by decide), BitVec.toNat_add, Nat.add_comm]

/-- Some blocks. -/
theorem steps_eq {K H H' : Nat → ShaWord} (hK : ShaConstants K) {p : List Bytes} (hb : ∀ b ∈ p, b.length = 128)
    (h : HashSteps K H p H') : p.foldl ShaWords.compress (wordsOf H) = wordsOf H' := by
  induction h with
  | nil => rfl
  | cons h1 _ ih =>
    rw [List.foldl_cons, compress_eq hK (hb _ (.head _)) h1]
    exact ih fun b h => hb b (.tail _ h)

/-- Recursion on all values before. -/
theorem recursion_exists {α : Type} [Inhabited α] (f : (Nat → α) → Nat → α)
    (hf : ∀ w w' i, (∀ j < i, w j = w' j) → f w i = f w' i) : ∃ w, ∀ i, w i = f w i := by
  let g : (i : Nat) → ((j : Nat) → j < i → α) → α := fun i ih => f (fun j => if h : j < i then ih j h else default) i
  refine ⟨Nat.lt_wfRel.wf.fix g, fun i => ?_⟩
  rw [WellFounded.fix_eq]
  exact hf _ _ _ fun j hj => dif_pos hj

theorem schedule_exists (block : Bytes) : ∃ W, Schedule block W := by
  obtain ⟨W, h⟩ := recursion_exists (fun W t => if t < 16 then wordOfBytes block t
    else smallSigma1 (W (t - 2)) + W (t - 7) + smallSigma0 (W (t - 15)) + W (t - 16)) (by
      intro w w' i h
      split
      · rfl
      · rw [h (i - 2) (by omega), h (i - 7) (by omega), h (i - 15) (by omega), h (i - 16) (by omega)])
  exact ⟨W, fun t ht => by rw [h, if_pos ht], fun t ht _ => (h t).trans (if_neg (by omega))⟩

theorem steps_exist (K H : Nat → ShaWord) (p : List Bytes) : ∃ H', HashSteps K H p H' := by
  induction p generalizing H with
  | nil => exact ⟨H, .nil⟩
  | cons b p ih =>
    obtain ⟨W, hW⟩ := schedule_exists b
    obtain ⟨H', h⟩ := ih fun i => workingVariables K W H 80 i + H i
    exact ⟨H', .cons ⟨W, hW, fun _ _ => rfl⟩ h⟩

theorem beNat_natBytes {n x : Nat} (h : x < 256 ^ n) : beNat (natBytes n x) = x := by
  induction n generalizing x with
  | zero => simp at h; subst h; rfl
  | succ n ih =>
    have hx : x / 256 < 256 ^ n := Nat.div_lt_of_lt_mul (by rw [Nat.mul_comm, ← Nat.pow_succ]; exact h)
    have e : beNat (natBytes (n + 1) x) = beNat (natBytes n (x / 256)) * 256 + (UInt8.ofNat (x % 256)).toNat := by
      simp only [natBytes, beNat, List.foldl_append, List.foldl_cons, List.foldl_nil]
    have e8 : (UInt8.ofNat (x % 256)).toNat = x % 256 := UInt8.toNat_ofNat_of_lt' (Nat.mod_lt _ (by decide))
    rw [e, ih hx, e8]
    omega

theorem words_inj {d d' : Bytes} (hd : d.length = 64) (hd' : d'.length = 64) (h : ∀ t < 8, wordOfBytes d t = wordOfBytes d' t) : d = d' := by
  refine List.ext_getElem? fun i => ?_
  by_cases hi : i < 64
  · have e := congrArg BitVec.toNat (h (i / 8) (by omega))
    rw [wordOfBytes_eq (by omega), wordOfBytes_eq (by omega)] at e
    have e := congrArg (fun l => l[i % 8]?) (beNat_inj (by simp; omega) e)
    simp only [List.getElem?_take, if_pos (Nat.mod_lt i (by decide : 8 > 0)), List.getElem?_drop] at e
    rwa [show 8 * (i / 8) + i % 8 = i by omega] at e
  · rw [List.getElem?_eq_none (by omega), List.getElem?_eq_none (by omega)]

theorem word_of_text (H : Nat → ShaWord) : ∀ t < 8, wordOfBytes (shaText (wordsOf H)) t = H t := by
  have hl : (shaText (wordsOf H)).length = 64 := by simp [shaText, natBytes_length]
  have hb (t : Nat) : beNat (natBytes 8 (H t).toNat) = (H t).toNat := beNat_natBytes (H t).isLt
  intro t ht
  apply BitVec.eq_of_toNat_eq
  rw [wordOfBytes_eq (by omega), ← hb t]
  congr 1
  have : t = 0 ∨ t = 1 ∨ t = 2 ∨ t = 3 ∨ t = 4 ∨ t = 5 ∨ t = 6 ∨ t = 7 := by omega
  have hd (k x : Nat) (h : 8 ≤ k) : (natBytes 8 x).drop k = [] := List.drop_eq_nil_of_le (by rw [natBytes_length]; exact h)
  have h8 (x : Nat) : (natBytes 8 x).take 8 = natBytes 8 x := List.take_of_length_le (Nat.le_of_eq (natBytes_length 8 x))
  rcases this with rfl | rfl | rfl | rfl | rfl | rfl | rfl | rfl <;>
    simp [shaText, wordsOf, List.drop_append, natBytes_length, hd, h8]

theorem shaText_words (H : Nat → ShaWord) {d : Bytes} (hd : d.length = 64) :
    (∀ t < 8, wordOfBytes d t = H t) ↔ d = shaText (wordsOf H) := by
  constructor
  · exact fun h => words_inj hd (by simp [shaText, natBytes_length]) fun t ht => (h t ht).trans (word_of_text H t ht).symm
  · rintro rfl
    exact word_of_text H

end Rops
