import Verif.Spec.Gcm
/-!
# Lemmas on AES-256-GCM and SHA-512
-/

namespace Rops
open Spec

theorem natBytes_length (n x : Nat) : (natBytes n x).length = n := by
  induction n generalizing x with
  | zero => rfl
  | succ n ih => simp [natBytes, ih]

theorem xor_ofNat (a b : Nat) : UInt8.ofNat (a % 256) ^^^ UInt8.ofNat (b % 256) = UInt8.ofNat ((a ^^^ b) % 256) := by
  apply UInt8.toNat_inj.1
  simp only [UInt8.toNat_xor, UInt8.toNat_ofNat']
  have h := @Nat.xor_mod_two_pow a b 8
  simp only [show (2 : Nat) ^ 8 = 256 from rfl, Nat.mod_mod] at h ⊢
  exact h.symm

theorem xor_natBytes (n x y : Nat) : xorBytes (natBytes n x) (natBytes n y) = natBytes n (x ^^^ y) := by
  unfold xorBytes
  induction n generalizing x y with
  | zero => rfl
  | succ n ih =>
    have h : (x ^^^ y) / 256 = x / 256 ^^^ y / 256 := by
      have := @Nat.shiftRight_xor_distrib 8 x y
      simpa [Nat.shiftRight_eq_div_pow] using this
    simp only [natBytes]
    rw [List.zipWith_append (by simp [natBytes_length]), ih, h]
    simp only [List.zipWith_cons_cons, List.zipWith_nil_right, xor_ofNat]

/-! ## Counter mode -/

theorem gcmStream_length (keys : List Columns) (n c : Nat) : (gcmStream keys n c).length = 16 * n := by
  induction n generalizing c with
  | zero => rfl
  | succ n ih => simp [gcmStream, natBytes_length, ih]; omega

theorem xorBytes_length {a b : Bytes} (h : a.length ≤ b.length) : (xorBytes a b).length = a.length := by
  simp [xorBytes]; omega

theorem xorBytes_cancel {a b : Bytes} (h : a.length ≤ b.length) : xorBytes (xorBytes a b) b = a := by
  unfold xorBytes
  induction a generalizing b with
  | nil => rfl
  | cons x a ih =>
    cases b with
    | nil => simp at h
    | cons y b =>
      simp only [List.zipWith_cons_cons, List.cons.injEq]
      refine ⟨?_, ih (by simpa using h)⟩
      rw [UInt8.xor_assoc, UInt8.xor_self, UInt8.xor_zero]

theorem xorBytes_swap (a b : Bytes) (h : a.length = b.length) : xorBytes a (xorBytes a b) = b := by
  unfold xorBytes
  induction a generalizing b with
  | nil => cases b <;> simp_all
  | cons x a ih =>
    rcases b with _ | ⟨y, b⟩
    · simp at h
    · simp only [List.zipWith_cons_cons]
      rw [ih b (by simpa using h), ← UInt8.xor_assoc, UInt8.xor_self, UInt8.zero_xor]

theorem xorBytes_self (a : Bytes) : xorBytes a a = List.replicate a.length 0 := by
  unfold xorBytes
  induction a with
  | nil => rfl
  | cons x a ih => simp only [List.zipWith_cons_cons, UInt8.xor_self, List.length_cons, List.replicate_succ, ih]

theorem xorBytes_zeros (a : Bytes) : xorBytes a (List.replicate a.length 0) = a := by
  unfold xorBytes
  induction a with
  | nil => rfl
  | cons x a ih => simp only [List.length_cons, List.replicate_succ, List.zipWith_cons_cons, UInt8.xor_zero, ih]

theorem xorBytes_move {a b s : Bytes} (h : a.length = b.length) (hs : a.length ≤ s.length) :
    xorBytes b s = xorBytes (xorBytes a s) (xorBytes a b) := by
  unfold xorBytes
  induction a generalizing b s with
  | nil => cases b <;> simp_all
  | cons x a ih =>
    rcases b with _ | ⟨y, b⟩
    · simp at h
    rcases s with _ | ⟨z, s⟩
    · simp at hs
    simp only [List.zipWith_cons_cons, List.cons.injEq]
    refine ⟨?_, ih (by simpa using h) (by simpa using hs)⟩
    rw [UInt8.xor_comm x z, UInt8.xor_assoc, ← UInt8.xor_assoc x x y, UInt8.xor_self, UInt8.zero_xor, UInt8.xor_comm]

theorem gctr_eq (keys : List Columns) (c : Nat) (b : Bytes) :
    gctr keys c b = xorBytes b (gcmStream keys (b.length / 16 + 1) c) := rfl

theorem stream_enough (keys : List Columns) (c n : Nat) : n ≤ (gcmStream keys (n / 16 + 1) c).length := by
  rw [gcmStream_length]; omega

theorem gctr_length (keys : List Columns) (c : Nat) (b : Bytes) : (gctr keys c b).length = b.length := by
  rw [gctr_eq, xorBytes_length (stream_enough keys c _)]

theorem gctr_gctr (keys : List Columns) (c : Nat) (b : Bytes) : gctr keys c (gctr keys c b) = b := by
  rw [gctr_eq keys c (gctr keys c b), gctr_length, gctr_eq, xorBytes_cancel (stream_enough keys c _)]

/-! ## The hash of GCM is linear -/

theorem gcmMul_xor (x y i z w v : Nat) : gcmMul (x ^^^ y) i (z ^^^ w) v = gcmMul x i z v ^^^ gcmMul y i w v := by
  induction i generalizing z w v with
  | zero => rfl
  | succ i ih =>
    simp only [gcmMul, ← ih, Nat.testBit_xor]
    congr 1
    cases x.testBit i <;> cases y.testBit i <;> simp
    · rw [Nat.xor_assoc]
    · rw [Nat.xor_assoc, Nat.xor_assoc, Nat.xor_comm v w]
    · have : z ^^^ v ^^^ (w ^^^ v) = z ^^^ w ^^^ (v ^^^ v) := by
        rw [Nat.xor_assoc, Nat.xor_assoc, ← Nat.xor_assoc v w v, Nat.xor_comm v w, Nat.xor_assoc w v v]
      rw [this, Nat.xor_self, Nat.xor_zero]

theorem ghash_xor_from (h : Nat) {a b : List Nat} (hl : a.length = b.length) (y z : Nat) :
    (blockDifference a b).foldl (fun y x => gcmMul (y ^^^ x) 128 0 h) (y ^^^ z) =
      a.foldl (fun y x => gcmMul (y ^^^ x) 128 0 h) y ^^^ b.foldl (fun y x => gcmMul (y ^^^ x) 128 0 h) z := by
  unfold blockDifference
  induction a generalizing b y z with
  | nil => cases b <;> simp_all
  | cons x a ih =>
    rcases b with _ | ⟨w, b⟩
    · simp at hl
    simp only [List.zipWith_cons_cons, List.foldl_cons]
    rw [← ih (by simpa using hl)]
    congr 1
    rw [← gcmMul_xor, Nat.xor_self]
    congr 1
    rw [Nat.xor_assoc, Nat.xor_assoc, ← Nat.xor_assoc z x w, Nat.xor_comm z x, Nat.xor_assoc x z w]

theorem ghash_xor (h : Nat) {a b : List Nat} (hl : a.length = b.length) :
    ghash h (blockDifference a b) = ghash h a ^^^ ghash h b := by
  have := ghash_xor_from h hl 0 0
  rwa [Nat.xor_self] at this

theorem gcmBlocks_length (n : Nat) {a b : Bytes} (h : a.length = b.length) : (gcmBlocks n a).length = (gcmBlocks n b).length := by
  induction n generalizing a b with
  | zero => rfl
  | succ n ih =>
    rcases a with _ | ⟨x, a⟩ <;> rcases b with _ | ⟨y, b⟩
    · rfl
    · simp at h
    · simp at h
    · simp only [gcmBlocks, List.length_cons]
      rw [ih (a := (x :: a).drop 16) (b := (y :: b).drop 16) (by simp at h; simp [h])]

theorem blocks16_length {a b : Bytes} (h : a.length = b.length) : (blocks16 a).length = (blocks16 b).length := by
  unfold blocks16
  rw [h]
  exact gcmBlocks_length _ h

theorem blockDifference_self (a : List Nat) : blockDifference a a = List.replicate a.length 0 := by
  unfold blockDifference
  induction a with
  | nil => rfl
  | cons x a ih => simp only [List.zipWith_cons_cons, Nat.xor_self, List.length_cons, List.replicate_succ, ih]

theorem blockDifference_append {a b c d : List Nat} (h : a.length = b.length) :
    blockDifference (a ++ c) (b ++ d) = blockDifference a b ++ blockDifference c d := by
  unfold blockDifference
  exact List.zipWith_append h

/-- Tags of texts of the same lengths, under one key and nonce. -/
theorem gcmTag_xor (keys : List Columns) (h first : Nat) {a a' c c' : Bytes} (ha : a.length = a'.length) (hc : c.length = c'.length) :
    xorBytes (gcmTag keys h first a c) (gcmTag keys h first a' c') =
      natBytes 16 (ghash h (blockDifference (blocks16 a) (blocks16 a') ++ blockDifference (blocks16 c) (blocks16 c') ++ [0])) := by
  unfold gcmTag
  rw [xor_natBytes, ← ha, ← hc]
  congr 1
  generalize aesBlock keys first = e
  generalize (8 * a.length) <<< 64 ||| 8 * c.length = l
  have hb : blockDifference (blocks16 a) (blocks16 a') ++ blockDifference (blocks16 c) (blocks16 c') ++ [0] =
      blockDifference (gcmBlocks a.length a ++ gcmBlocks c.length c ++ [l]) (gcmBlocks a.length a' ++ gcmBlocks c.length c' ++ [l]) := by
    rw [blockDifference_append (by simp only [List.length_append]; rw [gcmBlocks_length _ ha, gcmBlocks_length _ hc]),
      blockDifference_append (gcmBlocks_length _ ha), blockDifference_self]
    unfold blocks16
    rw [← ha, ← hc]
    rfl
  rw [hb, ghash_xor h (by simp only [List.length_append]; rw [gcmBlocks_length _ ha, gcmBlocks_length _ hc])]
  generalize ghash h _ = x
  generalize ghash h _ = y
  rw [Nat.xor_comm y e, Nat.xor_assoc, ← Nat.xor_assoc e e y, Nat.xor_self, Nat.zero_xor]

/-! ## SHA-512 -/

theorem absorb_more {n n' : Nat} {s : ShaWords} {b : Bytes} (h : b.length ≤ n) (h' : b.length ≤ n') : absorb n s b = absorb n' s b := by
  induction n generalizing n' s b with
  | zero =>
    have : b = [] := List.length_eq_zero_iff.1 (by omega)
    subst this
    cases n' <;> rfl
  | succ n ih =>
    cases n' with
    | zero =>
      have : b = [] := List.length_eq_zero_iff.1 (by omega)
      subst this
      rfl
    | succ n' =>
      simp only [absorb]
      split
      · rfl
      · exact ih (by simp; omega) (by simp; omega)

theorem absorb_append {n : Nat} {s : ShaWords} {a b : Bytes} (h : a.length ≤ n) :
    absorb (a ++ b).length s (a ++ b) = absorb ((absorb n s a).2 ++ b).length (absorb n s a).1 ((absorb n s a).2 ++ b) := by
  induction n generalizing s a with
  | zero => rfl
  | succ n ih =>
    simp only [absorb]
    split
    · rfl
    · rename_i hl
      have hl : 128 ≤ a.length := by omega
      obtain ⟨k, hk⟩ : ∃ k, (a ++ b).length = k + 1 := ⟨(a ++ b).length - 1, by simp only [List.length_append]; omega⟩
      rw [← ih (by simp; omega), hk]
      simp only [absorb]
      rw [if_neg (by simp only [List.length_append]; omega), List.take_append_of_le_length hl, List.drop_append_of_le_length hl]
      exact absorb_more (by simp only [List.length_append, List.length_drop] at hk ⊢; omega) (Nat.le_refl _)

theorem absorb_pieces {l : Bytes} {p : List Bytes} (h : Pieces l p) (s : ShaWords) :
    absorb l.length s l = (p.foldl ShaWords.compress s, []) := by
  induction h generalizing s with
  | nil => rfl
  | cons hb hp ih =>
    rename_i b l p
    obtain ⟨k, hk⟩ : ∃ k, (b ++ l).length = k + 1 := ⟨(b ++ l).length - 1, by simp only [List.length_append]; omega⟩
    rw [hk]
    simp only [absorb]
    rw [if_neg (by simp only [List.length_append]; omega), List.take_left' hb, List.drop_left' hb, List.foldl_cons, ← ih]
    exact absorb_more (by simp only [List.length_append] at hk; omega) (Nat.le_refl _)

theorem pieces_exist {l : Bytes} (q : Nat) (h : l.length = 128 * q) : ∃ p, Pieces l p := by
  induction q generalizing l with
  | zero =>
    have : l = [] := List.length_eq_zero_iff.1 (by omega)
    subst this
    exact ⟨[], .nil⟩
  | succ q ih =>
    obtain ⟨p, hp⟩ := ih (l := l.drop 128) (by simp; omega)
    have := Pieces.cons (b := l.take 128) (by simp; omega) hp
    rw [List.take_append_drop] at this
    exact ⟨_, this⟩

end Rops
