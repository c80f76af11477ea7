import Verif.Lemmas.Field128
/-!
# How many hash keys explain two tags
-/

namespace Rops
open Spec

/-! ## Bytes and numbers -/

theorem beNat_from (n : Nat) (b : Bytes) : b.foldl (fun n x => n * 256 + x.toNat) n = n * 256 ^ b.length + beNat b := by
  unfold beNat
  induction b generalizing n with
  | nil => simp
  | cons x b ih =>
    simp only [List.foldl_cons, List.length_cons]
    rw [ih (n * 256 + x.toNat), ih (0 * 256 + x.toNat), Nat.zero_mul, Nat.zero_add, Nat.pow_succ, Nat.add_mul,
      Nat.mul_assoc, Nat.mul_comm 256, Nat.add_assoc]

theorem beNat_cons (x : UInt8) (b : Bytes) : beNat (x :: b) = x.toNat * 256 ^ b.length + beNat b := by
  have := beNat_from x.toNat b
  rw [← this]
  show (b.foldl _ (0 * 256 + x.toNat)) = _
  rw [Nat.zero_mul, Nat.zero_add]

theorem beNat_lt (b : Bytes) : beNat b < 256 ^ b.length := by
  induction b with
  | nil => exact Nat.one_pos
  | cons x b ih =>
    rw [beNat_cons, List.length_cons, Nat.pow_succ, Nat.mul_comm (256 ^ b.length)]
    have h1 : x.toNat + 1 ≤ 256 := x.toNat_lt
    have h2 := Nat.mul_le_mul_right (256 ^ b.length) h1
    rw [Nat.add_mul, Nat.one_mul] at h2
    omega

theorem beNat_inj {a b : Bytes} (hl : a.length = b.length) (h : beNat a = beNat b) : a = b := by
  induction a generalizing b with
  | nil => cases b with
    | nil => rfl
    | cons _ _ => simp at hl
  | cons x a ih =>
    rcases b with _ | ⟨y, b⟩
    · simp at hl
    have hl' : a.length = b.length := by simpa using hl
    rw [beNat_cons, beNat_cons, hl'] at h
    have ha := beNat_lt a
    have hb := beNat_lt b
    rw [hl'] at ha
    have hp : 0 < 256 ^ b.length := Nat.pow_pos (by decide)
    have hd : (x.toNat * 256 ^ b.length + beNat a) / 256 ^ b.length = (y.toNat * 256 ^ b.length + beNat b) / 256 ^ b.length := by rw [h]
    rw [Nat.mul_comm, Nat.mul_comm y.toNat, Nat.mul_add_div hp, Nat.mul_add_div hp, Nat.div_eq_of_lt ha, Nat.div_eq_of_lt hb,
      Nat.add_zero, Nat.add_zero] at hd
    have hx : x = y := UInt8.toNat_inj.1 hd
    subst hx
    rw [ih hl' (by omega)]

theorem natBytes_inj (n : Nat) {x y : Nat} (hx : x < 256 ^ n) (hy : y < 256 ^ n) (h : natBytes n x = natBytes n y) : x = y := by
  induction n generalizing x y with
  | zero => omega
  | succ n ih =>
    rw [Nat.pow_succ] at hx hy
    simp only [natBytes] at h
    obtain ⟨h1, h2⟩ := List.append_inj' h rfl
    have := ih (Nat.div_lt_of_lt_mul (by omega)) (Nat.div_lt_of_lt_mul (by omega)) h1
    have h3 : x % 256 = y % 256 := by
      have h4 : (UInt8.ofNat (x % 256)).toNat = (UInt8.ofNat (y % 256)).toNat := by
        rw [List.singleton_inj.1 h2]
      simpa using h4
    omega

theorem gcmBlocks_lt (n : Nat) (b : Bytes) : ∀ x ∈ gcmBlocks n b, x < 2 ^ 128 := by
  induction n generalizing b with
  | zero => simp [gcmBlocks]
  | succ n ih =>
    cases b with
    | nil => simp [gcmBlocks]
    | cons y b =>
      intro x hx
      simp only [gcmBlocks] at hx
      rcases List.mem_cons.1 hx with rfl | hx
      · have := beNat_lt (((y :: b).take 16) ++ List.replicate (16 - (y :: b).length) 0)
        rw [List.length_append, List.length_replicate, List.length_take] at this
        have e : min 16 (y :: b).length + (16 - (y :: b).length) = 16 := by omega
        rw [e] at this
        exact Nat.lt_of_lt_of_le this (by decide)
      · exact ih _ x hx

theorem gcmBlocks_inj (n : Nat) {a b : Bytes} (ha : a.length ≤ n) (hl : a.length = b.length) (h : gcmBlocks n a = gcmBlocks n b) : a = b := by
  induction n generalizing a b with
  | zero =>
    rw [List.length_eq_zero_iff.1 (by omega : a.length = 0), List.length_eq_zero_iff.1 (by omega : b.length = 0)]
  | succ n ih =>
    rcases a with _ | ⟨x, a⟩
    · exact (List.length_eq_zero_iff.1 hl.symm).symm
    rcases b with _ | ⟨y, b⟩
    · simp at hl
    simp only [gcmBlocks] at h
    obtain ⟨h1, h2⟩ := List.cons.inj h
    have h3 := beNat_inj (by simp only [List.length_append, List.length_replicate, List.length_take]; omega) h1
    obtain ⟨h4, _⟩ := List.append_inj h3 (by simp only [List.length_take]; omega)
    have h5 := ih (by simp only [List.length_drop]; omega) (by simp only [List.length_drop]; omega) h2
    rw [← List.take_append_drop 16 (x :: a), h4, h5, List.take_append_drop]

theorem blocks16_inj {a b : Bytes} (hl : a.length = b.length) (h : blocks16 a = blocks16 b) : a = b := by
  unfold blocks16 at h
  rw [← hl] at h
  exact gcmBlocks_inj _ (Nat.le_refl _) hl h

/-! ## Polynomials -/

theorem ghash_from (h w : Nat) (xs : List Nat) :
    xs.foldl (fun y x => gcmMul (y ^^^ x) 128 0 h) (mult w h) = mult (horner h w xs) h := by
  induction xs generalizing w with
  | nil => simp only [List.foldl_nil, horner]
  | cons x xs ih =>
    simp only [List.foldl_cons, horner]
    exact ih _

theorem ghash_cons (h c : Nat) (cs : List Nat) : ghash h (c :: cs) = mult (horner h c cs) h := by
  have := ghash_from h c cs
  unfold ghash
  rw [List.foldl_cons, Nat.zero_xor]
  exact this

theorem ghash_zero (h : Nat) (cs : List Nat) : ghash h (0 :: cs) = ghash h cs := by
  unfold ghash
  have : gcmMul 0 128 0 h = 0 := zero_mult h
  rw [List.foldl_cons, Nat.xor_self, this]

theorem ghash_zeros (h n : Nat) (cs : List Nat) : ghash h (List.replicate n 0 ++ cs) = ghash h cs := by
  induction n with
  | zero => rfl
  | succ n ih => rw [List.replicate_succ, List.cons_append, ghash_zero, ih]

theorem ghash_lt {h : Nat} (hh : h < 2 ^ 128) (cs : List Nat) : ghash h cs < 2 ^ 128 := by
  cases cs with
  | nil => exact Nat.two_pow_pos 128
  | cons c cs => rw [ghash_cons]; exact mult_lt hh

theorem horner_append (h c : Nat) (xs ys : List Nat) : horner h c (xs ++ ys) = horner h (horner h c xs) ys := by
  induction xs generalizing c with
  | nil => rfl
  | cons x xs ih => exact ih _

/-- A polynomial that is not zero takes a value no more often than its degree. -/
theorem ghash_values {cs : List Nat} (hc : ∀ c ∈ cs, c < 2 ^ 128) (h0 : ∃ c ∈ cs, c ≠ 0) {d : Nat} (hd : d < 2 ^ 128) :
    AtMost cs.length (fun h => h < 2 ^ 128 ∧ ghash h cs = d) := by
  induction cs with
  | nil => obtain ⟨c, hc, _⟩ := h0; cases hc
  | cons c cs ih =>
    by_cases hz : c = 0
    · subst hz
      intro l hl hx
      have := ih (fun x hx => hc x (by simp [hx])) (by
        obtain ⟨x, hx, hne⟩ := h0
        rcases List.mem_cons.1 hx with rfl | hx
        · exact absurd rfl hne
        · exact ⟨x, hx, hne⟩) l hl (fun x hm => by
          have := hx x hm
          simp only [ghash_zero] at this
          exact this)
      simp only [List.length_cons]
      omega
    · intro l hl hx
      have := roots_le (c := c) (xs := cs ++ [d]) (hc c (by simp)) hz (fun x hx => by
        rcases List.mem_append.1 hx with hx | hx
        · exact hc x (by simp [hx])
        · rw [List.mem_singleton.1 hx]; exact hd) l hl (fun r hr => by
          obtain ⟨h1, h2⟩ := hx r hr
          refine ⟨h1, ?_⟩
          rw [ghash_cons] at h2
          rw [horner_append]
          show mult (horner r c cs) r ^^^ d = 0
          rw [h2, Nat.xor_self])
      simpa using this

theorem blockDifference_lt {a b : List Nat} (ha : ∀ x ∈ a, x < 2 ^ 128) (hb : ∀ x ∈ b, x < 2 ^ 128) : ∀ x ∈ blockDifference a b, x < 2 ^ 128 := by
  unfold blockDifference
  induction a generalizing b with
  | nil => simp
  | cons y a ih =>
    cases b with
    | nil => simp
    | cons z b =>
      intro x hx
      rw [List.zipWith_cons_cons] at hx
      rcases List.mem_cons.1 hx with rfl | hx
      · exact Nat.xor_lt_two_pow (ha y (by simp)) (hb z (by simp))
      · exact ih (fun w hw => ha w (by simp [hw])) (fun w hw => hb w (by simp [hw])) x hx

theorem blockDifference_ne {a b : List Nat} (hl : a.length = b.length) (h : a ≠ b) : ∃ x ∈ blockDifference a b, x ≠ 0 := by
  unfold blockDifference
  induction a generalizing b with
  | nil => exact absurd (List.length_eq_zero_iff.1 hl.symm).symm h
  | cons x a ih =>
    rcases b with _ | ⟨y, b⟩
    · simp at hl
    by_cases hxy : x = y
    · subst hxy
      obtain ⟨z, hz, hne⟩ := ih (by simpa using hl) (fun e => h (by rw [e]))
      exact ⟨z, by rw [List.zipWith_cons_cons]; exact List.mem_cons_of_mem _ hz, hne⟩
    · exact ⟨x ^^^ y, by rw [List.zipWith_cons_cons]; exact List.mem_cons_self, fun e => hxy (xor_cancel e)⟩

/-- Two lists of blocks, the shorter one with zeros before it, are hashed to a difference for few keys. -/
theorem ghash_difference {m m' : List Nat} (hm : ∀ x ∈ m, x < 2 ^ 128) (hm' : ∀ x ∈ m', x < 2 ^ 128)
    (hne : List.replicate (max m.length m'.length - m.length) 0 ++ m ≠ List.replicate (max m.length m'.length - m'.length) 0 ++ m')
    {d : Nat} (hd : d < 2 ^ 128) : AtMost (max m.length m'.length) (fun h => h < 2 ^ 128 ∧ ghash h m ^^^ ghash h m' = d) := by
  intro l hl hx
  have hlen : (List.replicate (max m.length m'.length - m.length) 0 ++ m).length =
      (List.replicate (max m.length m'.length - m'.length) 0 ++ m').length := by
    simp only [List.length_append, List.length_replicate]; omega
  have hz : ∀ (k : Nat) (b : List Nat), (∀ x ∈ b, x < 2 ^ 128) → ∀ x ∈ List.replicate k 0 ++ b, x < 2 ^ 128 := by
    intro k b hb x hx
    rcases List.mem_append.1 hx with hx | hx
    · rw [List.eq_of_mem_replicate hx]; decide
    · exact hb x hx
  have := ghash_values (blockDifference_lt (hz _ _ hm) (hz _ _ hm')) (blockDifference_ne hlen hne) hd l hl (fun h hh => by
    obtain ⟨h1, h2⟩ := hx h hh
    exact ⟨h1, by rw [ghash_xor h hlen, ghash_zeros, ghash_zeros, h2]⟩)
  refine Nat.le_trans this ?_
  unfold blockDifference
  simp only [List.length_zipWith, List.length_append, List.length_replicate]
  omega

/-! ## What is hashed -/

theorem lengths_lt {a c : Nat} (ha : a < 2 ^ 61) (hc : c < 2 ^ 61) : (8 * a) <<< 64 ||| 8 * c < 2 ^ 128 := by
  apply Nat.or_lt_two_pow
  · rw [Nat.shiftLeft_eq]; omega
  · omega

theorem lengths_inj {a c a' c' : Nat} (hc : c < 2 ^ 61) (hc' : c' < 2 ^ 61)
    (h : (8 * a) <<< 64 ||| 8 * c = (8 * a') <<< 64 ||| 8 * c') : a = a' ∧ c = c' := by
  rw [← Nat.shiftLeft_add_eq_or_of_lt (by omega : 8 * c < 2 ^ 64), ← Nat.shiftLeft_add_eq_or_of_lt (by omega : 8 * c' < 2 ^ 64),
    Nat.shiftLeft_eq, Nat.shiftLeft_eq] at h
  omega

theorem tagged_lt {a c : Bytes} (ha : a.length < 2 ^ 61) (hc : c.length < 2 ^ 61) : ∀ x ∈ tagged a c, x < 2 ^ 128 := by
  intro x hx
  rcases List.mem_append.1 hx with hx | hx
  · rcases List.mem_append.1 hx with hx | hx
    · exact gcmBlocks_lt _ _ x hx
    · exact gcmBlocks_lt _ _ x hx
  · rw [List.mem_singleton.1 hx]
    exact lengths_lt ha hc

/-- Different texts are different polynomials. -/
theorem tagged_inj {a c a' c' : Bytes} (hc : c.length < 2 ^ 61) (hc' : c'.length < 2 ^ 61) {k k' : Nat}
    (h : List.replicate k 0 ++ tagged a c = List.replicate k' 0 ++ tagged a' c') : a = a' ∧ c = c' := by
  unfold tagged at h
  rw [← List.append_assoc, ← List.append_assoc (List.replicate k' 0)] at h
  obtain ⟨h1, h2⟩ := List.append_inj' h (by simp only [List.length_singleton])
  obtain ⟨hla, hlc⟩ := lengths_inj hc hc' (List.singleton_inj.1 h2)
  rw [← List.append_assoc, ← List.append_assoc (List.replicate k' 0)] at h1
  obtain ⟨h3, h4⟩ := List.append_inj' h1 (blocks16_length hlc)
  obtain ⟨_, h5⟩ := List.append_inj' h3 (blocks16_length hla)
  exact ⟨blocks16_inj hla h5, blocks16_inj hlc h4⟩

/-! ## The block cipher makes blocks -/

/-- Four words. -/
def Columns.Fit (s : Columns) : Prop := s.c0 < 2 ^ 32 ∧ s.c1 < 2 ^ 32 ∧ s.c2 < 2 ^ 32 ∧ s.c3 < 2 ^ 32

theorem subByte_lt (x : Nat) : subByte x < 256 := Nat.mod_lt _ (by decide)

theorem xtime_lt : ∀ b < 256, xtime b < 256 := by decide +kernel

theorem aesWord_lt {a b c d : Nat} (ha : a < 256) (hb : b < 256) (hc : c < 256) (hd : d < 256) : aesWord a b c d < 2 ^ 32 := by
  unfold aesWord
  refine Nat.or_lt_two_pow (Nat.or_lt_two_pow (Nat.or_lt_two_pow ?_ ?_) ?_) ?_
  all_goals first | (rw [Nat.shiftLeft_eq]; omega) | omega

theorem Columns.Fit.xor {s k : Columns} (hs : s.Fit) (hk : k.Fit) : (s.xor k).Fit :=
  ⟨Nat.xor_lt_two_pow hs.1 hk.1, Nat.xor_lt_two_pow hs.2.1 hk.2.1, Nat.xor_lt_two_pow hs.2.2.1 hk.2.2.1,
    Nat.xor_lt_two_pow hs.2.2.2 hk.2.2.2⟩

theorem xor_byte {a b : Nat} (ha : a < 256) (hb : b < 256) : a ^^^ b < 256 := Nat.xor_lt_two_pow (n := 8) ha hb

theorem mixColumn_lt {a b c d : Nat} (ha : a < 256) (hb : b < 256) (hc : c < 256) (hd : d < 256) : mixColumn a b c d < 2 ^ 32 := by
  have ta := xtime_lt a ha
  have tb := xtime_lt b hb
  have tc := xtime_lt c hc
  have td := xtime_lt d hd
  apply aesWord_lt <;> repeat' first | assumption | apply xor_byte

theorem Columns.step_fit {f : Nat → Nat → Nat → Nat → Nat}
    (hf : ∀ a b c d, a < 256 → b < 256 → c < 256 → d < 256 → f a b c d < 2 ^ 32) (s : Columns) : (s.step f).Fit := by
  have h : ∀ a b c d, shiftedColumn f a b c d < 2 ^ 32 := fun a b c d =>
    hf _ _ _ _ (subByte_lt _) (subByte_lt _) (subByte_lt _) (subByte_lt _)
  exact ⟨h _ _ _ _, h _ _ _ _, h _ _ _ _, h _ _ _ _⟩

theorem aesRounds_fit {ks : List Columns} (hk : ∀ k ∈ ks, k.Fit) {s : Columns} (hs : s.Fit) : (aesRounds ks s).Fit := by
  induction ks generalizing s with
  | nil => exact hs
  | cons k ks ih =>
    cases ks with
    | nil => exact (Columns.step_fit (fun _ _ _ _ => aesWord_lt) s).xor (hk k (by simp))
    | cons k' ks =>
      exact ih (fun x hx => hk x (by simp [hx])) ((Columns.step_fit (fun _ _ _ _ => mixColumn_lt) s).xor (hk k (by simp)))

theorem columns_fit (n : Nat) : (columns n).Fit :=
  ⟨Nat.mod_lt _ (by decide), Nat.mod_lt _ (by decide), Nat.mod_lt _ (by decide), Nat.mod_lt _ (by decide)⟩

theorem subWord_lt (w : Nat) : subWord w < 2 ^ 32 := aesWord_lt (subByte_lt _) (subByte_lt _) (subByte_lt _) (subByte_lt _)

theorem nextKeys_fit {r : Nat} (hr : r < 256) {p q : Columns} (hp : p.Fit) (hq : q.Fit) : (nextKeys r p q).1.Fit ∧ (nextKeys r p q).2.Fit := by
  have hr' : r <<< 24 < 2 ^ 32 := by rw [Nat.shiftLeft_eq]; omega
  have a0 := Nat.xor_lt_two_pow (Nat.xor_lt_two_pow hp.1 (subWord_lt (rotWord q.c3))) hr'
  have a1 := Nat.xor_lt_two_pow hp.2.1 a0
  have a2 := Nat.xor_lt_two_pow hp.2.2.1 a1
  have a3 := Nat.xor_lt_two_pow hp.2.2.2 a2
  have b0 := Nat.xor_lt_two_pow hq.1 (subWord_lt (p.c3 ^^^ (p.c2 ^^^ (p.c1 ^^^ (p.c0 ^^^ subWord (rotWord q.c3) ^^^ r <<< 24)))))
  have b1 := Nat.xor_lt_two_pow hq.2.1 b0
  have b2 := Nat.xor_lt_two_pow hq.2.2.1 b1
  exact ⟨⟨a0, a1, a2, a3⟩, ⟨b0, b1, b2, Nat.xor_lt_two_pow hq.2.2.2 b2⟩⟩

theorem keySchedule_fit {rs : List Nat} (hr : ∀ r ∈ rs, r < 256) {p q : Columns} (hp : p.Fit) (hq : q.Fit) :
    ∀ k ∈ keySchedule rs p q, k.Fit := by
  induction rs generalizing p q with
  | nil => intro k hk; rw [List.mem_singleton.1 hk]; exact hp
  | cons r rs ih =>
    intro k hk
    have hn := nextKeys_fit (hr r (by simp)) hp hq
    simp only [keySchedule, List.mem_cons] at hk
    rcases hk with rfl | rfl | hk
    · exact hp
    · exact hq
    · exact ih (fun x hx => hr x (by simp [hx])) hn.1 hn.2 k hk

theorem aesBlock_lt (key : Bytes) (n : Nat) : aesBlock (aesKeys key) n < 2 ^ 128 := by
  have hk : ∀ k ∈ aesKeys key, k.Fit := keySchedule_fit (by decide) (columns_fit _) (columns_fit _)
  unfold aesBlock
  generalize aesKeys key = ks at hk
  cases ks with
  | nil => exact Nat.two_pow_pos 128
  | cons k ks =>
    obtain ⟨h0, h1, h2, h3⟩ := aesRounds_fit (ks := ks) (fun x hx => hk x (by simp [hx])) ((columns_fit n).xor (hk k (by simp)))
    simp only
    generalize aesRounds ks ((columns n).xor k) = s at h0 h1 h2 h3
    refine Nat.or_lt_two_pow (Nat.or_lt_two_pow (Nat.or_lt_two_pow ?_ ?_) ?_) ?_
    all_goals first | (rw [Nat.shiftLeft_eq]; omega) | omega

end Rops
