import Verif.Lemmas.Gcm
/-!
# The field of GCM

The product of blocks is the product of the field with 2^128 elements: what is shown here is that it is commutative,
associative and without divisors of zero, and that a polynomial has no more roots than its degree.
-/

namespace Rops
open Spec

instance : Std.Associative (α := Nat) (· ^^^ ·) := ⟨Nat.xor_assoc⟩
instance : Std.Commutative (α := Nat) (· ^^^ ·) := ⟨Nat.xor_comm⟩

theorem xor_cancel {a b : Nat} (h : a ^^^ b = 0) : a = b := by
  have : a ^^^ b ^^^ b = b := by rw [h, Nat.zero_xor]
  rwa [Nat.xor_assoc, Nat.xor_self, Nat.xor_zero] at this

/-- A map that respects `^^^`. -/
def Additive (f : Nat → Nat) : Prop := ∀ a b, f (a ^^^ b) = f a ^^^ f b

theorem Additive.zero {f : Nat → Nat} (h : Additive f) : f 0 = 0 := by
  have := h 0 0
  rwa [Nat.xor_self, Nat.xor_self] at this

theorem split_bit (n x : Nat) (h : x < 2 ^ (n + 1)) : x = (x % 2 ^ n) ^^^ (if x.testBit n then 2 ^ n else 0) := by
  apply Nat.eq_of_testBit_eq
  intro i
  rw [Nat.testBit_xor, Nat.testBit_mod_two_pow]
  by_cases hi : i < n
  · have hne : n ≠ i := by omega
    split <;> simp [hi, hne]
  · by_cases hn : i = n
    · subst hn
      split <;> simp_all
    · have : x.testBit i = false := Nat.testBit_lt_two_pow (Nat.lt_of_lt_of_le h (Nat.pow_le_pow_right (by omega) (by omega)))
      rw [this]
      split <;> simp [hi, Nat.testBit_two_pow]
      omega

/-- Two such maps agree if they do on the powers of two. -/
theorem additive_ext {f g : Nat → Nat} (hf : Additive f) (hg : Additive g) {n : Nat} (h : ∀ j < n, f (2 ^ j) = g (2 ^ j)) {x : Nat}
    (hx : x < 2 ^ n) : f x = g x := by
  induction n generalizing x with
  | zero =>
    have : x = 0 := by simpa using hx
    rw [this, hf.zero, hg.zero]
  | succ n ih =>
    rw [split_bit n x hx, hf, hg, ih (fun j hj => h j (by omega)) (Nat.mod_lt _ (Nat.two_pow_pos n))]
    congr 1
    split
    · exact h n (by omega)
    · rw [hf.zero, hg.zero]

/-! ## The product -/

/-- A block times x. -/
def mulX (v : Nat) : Nat := if v % 2 = 0 then v / 2 else (v / 2) ^^^ 0xe1 <<< 120

theorem mulX_additive : Additive mulX := by
  intro a b
  unfold mulX
  have hd : (a ^^^ b) / 2 = a / 2 ^^^ b / 2 := by
    apply Nat.eq_of_testBit_eq
    intro i
    simp [Nat.testBit_div_two, Nat.testBit_xor]
  have hm : (a ^^^ b) % 2 = (a % 2 + b % 2) % 2 := by
    have := @Nat.xor_mod_two_pow a b 1
    rw [Nat.pow_one] at this
    rw [this]
    rcases Nat.mod_two_eq_zero_or_one a with h | h <;> rcases Nat.mod_two_eq_zero_or_one b with h' | h' <;> rw [h, h'] <;> rfl
  rw [hd, hm]
  rcases Nat.mod_two_eq_zero_or_one a with h | h <;> rcases Nat.mod_two_eq_zero_or_one b with h' | h' <;> rw [h, h']
  · rfl
  · rw [if_neg (by decide), if_pos rfl, if_neg (by decide)]; ac_rfl
  · rw [if_neg (by decide), if_pos rfl, if_neg (by decide)]; ac_rfl
  · rw [if_pos rfl, if_neg (by decide), if_neg (by decide)]
    have : (a / 2 ^^^ 0xe1 <<< 120) ^^^ (b / 2 ^^^ 0xe1 <<< 120) = a / 2 ^^^ b / 2 ^^^ (0xe1 <<< 120 ^^^ 0xe1 <<< 120) := by ac_rfl
    rw [this, Nat.xor_self, Nat.xor_zero]

theorem mulX_lt {v : Nat} (h : v < 2 ^ 128) : mulX v < 2 ^ 128 := by
  unfold mulX
  split
  · omega
  · exact Nat.xor_lt_two_pow (by omega) (by decide)

theorem gcmMul_succ (x i z v : Nat) : gcmMul x (i + 1) z v = gcmMul x i (if x.testBit i then z ^^^ v else z) (mulX v) := rfl

theorem gcmMul_start (x i z v : Nat) : gcmMul x i z v = z ^^^ gcmMul x i 0 v := by
  have := gcmMul_xor 0 x i z 0 v
  rw [Nat.zero_xor, Nat.xor_zero] at this
  rw [this]
  congr 1
  clear this
  induction i generalizing z v with
  | zero => rfl
  | succ i ih => rw [gcmMul_succ, if_neg (by simp)]; exact ih _ _

theorem mult_left (v : Nat) : Additive (fun x => mult x v) := by
  intro a b
  have := gcmMul_xor a b 128 0 0 v
  rwa [Nat.xor_self] at this

theorem gcmMul_right (x i : Nat) : Additive (fun v => gcmMul x i 0 v) := by
  induction i with
  | zero => intro a b; exact (Nat.xor_self 0).symm
  | succ i ih =>
    intro a b
    simp only [gcmMul_succ]
    rw [gcmMul_start, gcmMul_start x i _ (mulX a), gcmMul_start x i _ (mulX b), mulX_additive]
    have := ih (mulX a) (mulX b)
    simp only at this
    rw [this]
    split
    · simp only [Nat.zero_xor]; ac_rfl
    · simp only [Nat.zero_xor]

theorem mult_right (x : Nat) : Additive (fun v => mult x v) := gcmMul_right x 128

theorem gcmMul_lt {x i v : Nat} (hv : v < 2 ^ 128) : gcmMul x i 0 v < 2 ^ 128 := by
  induction i generalizing v with
  | zero => exact Nat.two_pow_pos 128
  | succ i ih =>
    rw [gcmMul_succ, gcmMul_start]
    apply Nat.xor_lt_two_pow _ (ih (mulX_lt hv))
    split
    · rwa [Nat.zero_xor]
    · exact Nat.two_pow_pos 128

theorem mult_lt {x v : Nat} (hv : v < 2 ^ 128) : mult x v < 2 ^ 128 := gcmMul_lt hv

/-- `n` times x. -/
def mulXs : Nat → Nat → Nat
  | 0, v => v
  | n + 1, v => mulXs n (mulX v)

theorem mulXs_mulX (n v : Nat) : mulXs n (mulX v) = mulX (mulXs n v) := by
  induction n generalizing v with
  | zero => rfl
  | succ n ih => exact ih _

theorem mulXs_comm (n m v : Nat) : mulXs n (mulXs m v) = mulXs m (mulXs n v) := by
  induction n generalizing v with
  | zero => rfl
  | succ n ih =>
    show mulXs n (mulX (mulXs m v)) = mulXs m (mulXs n (mulX v))
    rw [← mulXs_mulX m v, ih]

theorem gcmMul_bit (i j v : Nat) : gcmMul (2 ^ j) i 0 v = if j < i then mulXs (i - 1 - j) v else 0 := by
  induction i generalizing v with
  | zero => rfl
  | succ i ih =>
    rw [gcmMul_succ, gcmMul_start, ih]
    simp only [Nat.testBit_two_pow]
    by_cases h : j = i
    · subst h
      simp [mulXs]
    · by_cases h' : j < i
      · have : i + 1 - 1 - j = (i - 1 - j) + 1 := by omega
        have hji : i ≠ j := by omega
        have hlt : j < i + 1 := by omega
        rw [this, if_pos h', if_pos hlt]
        simp [h, mulXs]
      · have : ¬ j < i + 1 := by omega
        simp [h, h', this]

theorem mult_bit {j : Nat} (hj : j < 128) (v : Nat) : mult (2 ^ j) v = mulXs (127 - j) v := by
  unfold mult
  rw [gcmMul_bit, if_pos hj]

theorem bit_mulXs : ∀ j < 128, 2 ^ j = mulXs (127 - j) (2 ^ 127) := by decide +kernel

theorem mult_comm {x y : Nat} (hx : x < 2 ^ 128) (hy : y < 2 ^ 128) : mult x y = mult y x := by
  refine additive_ext (mult_left y) (mult_right y) (fun i hi => ?_) hx
  refine additive_ext (mult_right (2 ^ i)) (mult_left (2 ^ i)) (fun j hj => ?_) hy
  show mult (2 ^ i) (2 ^ j) = mult (2 ^ j) (2 ^ i)
  rw [mult_bit hi, mult_bit hj]
  conv => lhs; rw [bit_mulXs j hj]
  conv => rhs; rw [bit_mulXs i hi]
  exact mulXs_comm _ _ _

theorem mult_mulX_right (x v : Nat) : mult x (mulX v) = mulX (mult x v) := by
  have h : ∀ i v, gcmMul x i 0 (mulX v) = mulX (gcmMul x i 0 v) := by
    intro i
    induction i with
    | zero => intro v; exact mulX_additive.zero.symm
    | succ i ih =>
      intro v
      simp only [gcmMul_succ]
      rw [gcmMul_start x i (if x.testBit i = true then 0 ^^^ mulX v else 0),
        gcmMul_start x i (if x.testBit i = true then 0 ^^^ v else 0), ih, mulX_additive]
      congr 1
      split
      · rw [Nat.zero_xor, Nat.zero_xor]
      · exact mulX_additive.zero.symm
  exact h 128 v

theorem mult_mulXs_right (n x v : Nat) : mult x (mulXs n v) = mulXs n (mult x v) := by
  induction n generalizing v with
  | zero => simp only [mulXs]
  | succ n ih =>
    show mult x (mulXs n (mulX v)) = mulXs n (mulX (mult x v))
    rw [ih, mult_mulX_right]

theorem mulXs_lt (n : Nat) {v : Nat} (h : v < 2 ^ 128) : mulXs n v < 2 ^ 128 := by
  induction n generalizing v with
  | zero => exact h
  | succ n ih => exact ih (mulX_lt h)

theorem mult_assoc {x y z : Nat} (hx : x < 2 ^ 128) (hy : y < 2 ^ 128) (hz : z < 2 ^ 128) :
    mult (mult x y) z = mult x (mult y z) := by
  refine additive_ext (f := fun x => mult (mult x y) z) (g := fun x => mult x (mult y z)) ?_ (mult_left _) (fun i hi => ?_) hx
  · intro a b
    have h1 := mult_left y a b
    have h2 := mult_left z (mult a y) (mult b y)
    simp only at h1 h2 ⊢
    rw [h1, h2]
  · show mult (mult (2 ^ i) y) z = mult (2 ^ i) (mult y z)
    rw [mult_bit hi, mult_bit hi, mult_comm (mulXs_lt _ hy) hz, mult_mulXs_right, mult_comm hy hz]

theorem mult_one {v : Nat} (hv : v < 2 ^ 128) : mult v (2 ^ 127) = v := by
  rw [mult_comm hv (by decide), mult_bit (by decide)]
  rfl

theorem mult_zero (v : Nat) : mult v 0 = 0 := (mult_right v).zero
theorem zero_mult (v : Nat) : mult 0 v = 0 := (mult_left v).zero

/-! ## No divisors of zero -/

/-- Squared `n` times. -/
def squares : Nat → Nat → Nat
  | 0, v => v
  | n + 1, v => squares n (mult v v)

theorem squares_step (n v : Nat) : squares (n + 1) v = squares n (mult v v) := rfl

theorem square_additive {a b : Nat} (ha : a < 2 ^ 128) (hb : b < 2 ^ 128) : mult (a ^^^ b) (a ^^^ b) = mult a a ^^^ mult b b := by
  have h1 := mult_left (a ^^^ b) a b
  have h2 := mult_right a a b
  have h3 := mult_right b a b
  simp only at h1 h2 h3
  rw [h1, h2, h3, mult_comm hb ha]
  have : mult a a ^^^ mult a b ^^^ (mult a b ^^^ mult b b) = mult a a ^^^ mult b b ^^^ (mult a b ^^^ mult a b) := by ac_rfl
  rw [this, Nat.xor_self, Nat.xor_zero]

theorem square_mult {a b : Nat} (ha : a < 2 ^ 128) (hb : b < 2 ^ 128) : mult (mult a b) (mult a b) = mult (mult a a) (mult b b) := by
  have hab : mult a b < 2 ^ 128 := mult_lt hb
  rw [mult_assoc ha hb hab, ← mult_assoc hb ha hb, mult_comm hb ha, mult_assoc ha hb hb, ← mult_assoc ha ha (mult_lt hb)]

theorem squares_lt (n : Nat) {v : Nat} (h : v < 2 ^ 128) : squares n v < 2 ^ 128 := by
  induction n generalizing v with
  | zero => exact h
  | succ n ih => exact ih (mult_lt h)

theorem squares_xor (n : Nat) {a b : Nat} (ha : a < 2 ^ 128) (hb : b < 2 ^ 128) : squares n (a ^^^ b) = squares n a ^^^ squares n b := by
  induction n generalizing a b with
  | zero => rfl
  | succ n ih =>
    rw [squares_step, squares_step, squares_step, square_additive ha hb, ih (mult_lt ha) (mult_lt hb)]

theorem squares_mult (n : Nat) {a b : Nat} (ha : a < 2 ^ 128) (hb : b < 2 ^ 128) : squares n (mult a b) = mult (squares n a) (squares n b) := by
  induction n generalizing a b with
  | zero => rfl
  | succ n ih =>
    rw [squares_step, squares_step, squares_step, square_mult ha hb, ih (mult_lt ha) (mult_lt hb)]

theorem squares_add (n m v : Nat) : squares (n + m) v = squares m (squares n v) := by
  induction n generalizing v with
  | zero => rw [Nat.zero_add]; rfl
  | succ n ih =>
    rw [Nat.add_right_comm, squares_step, squares_step, ih]

/-- x, and what comes from it by squaring 2, 4, ..., 128 times. -/
def xSquares : List Nat :=
  [0x40000000000000000000000000000000, 0x8000000000000000000000000000000, 0x8000000000000000000000000000, 0x8000000000000000,
   0xa8020000000000000000000000000000, 0x80808000000000800000000000000000, 0x800000008000000080000000e1000000, 0x13f3efc9753840000000000000000000,
   0xef71e969867f1888690888888008008, 0x785720fb8871865780a6b48cd90a96d1, 0x9d417fa61f65872a7bfa7acbff7bf580, 0xb2647d77e1a28de9c9ea5b79eac8a5c1,
   0xb812f046d6c9e958b286b56ae8251fe3, 0x22432c6ec1cdb55ab0ac8660bc1bdc34, 0xca397a34a3f7eda541facf68c22c70a8, 0x436f1cf28e241ddfe614f342cee58ccb,
   0x54a0a9601f5eee84180dcbba9950b41e, 0xe5e71bb22de5001fa5a4890bb4d8b53, 0x25e8ff5e0055dd90103d8b8387440d04, 0x1f65c18795b5cb8347f4051d1a5cd557,
   0x4853d688639329e8717b2f6dd12a2a18, 0x9908abb046ebdee7cd32cdae007043e3, 0x377e04f142dcfd9b9269c56b9bbe01cb, 0x555ae6d0da8bc5d56299dd997c90508e,
   0xbf81d79b681eb87f1840494ee86d68c7, 0x6566f1bd032c6e16a7bd8d175a714cb2, 0x692ed23988cad9c9b616ef174b65be90, 0xfa0946c96284c5d57dcd49e325281a3c,
   0xce981e35ae0dc847c9bd2c2ac24a402e, 0xace9dbeef679a0728561f1422ee72528, 0x2226150e1942b16745c23c5e41707c1e, 0xf2176b4964a57635aeeafc7ec8362bbc,
   0x6f9945a9e519a7229d4c1ad657f8a686, 0x3dc56ce9bea6fe2bca6ff45b8c7ea343, 0x562ae9f5d02642d49f3f080f892211fd, 0xac39a95e530cbd2277395dde8852b4ef,
   0x9823eb3e3b72089f2fc8d277b8f0bf53, 0xdd9aeca000210297bd81b9403e20d2df, 0xbcdadc6d27d8d3006a2b6b6622812d7b, 0x1bda5786f1695f2d9af1dbe0545f2955,
   0x5e27788143e15420ee953b2d4cabc59e, 0xa2b722231ebd8221ce8e45a8984fcb49, 0x5d7a5bb02210b70099da0122a722059a, 0x8c6972ea34058b59b86393058a266414,
   0x60c42fb6d5fbf292b5c6075c2cf30349, 0xc3a11f9613e149e1bbc3d291e2e5b5dd, 0xe9cf1574d6a6c218a44126ca02a2dbf7, 0xaa301e2ec7617120e63f1e30b044a6f9,
   0xdebb046b71ae153b531960a283fb4702, 0x2a8ab4d60f034a2465cf41f1ae393318, 0xaa9c0a807dbcf3ad87daaf8dcc5846d1, 0x1b83535ac077e5b18c2005adca2c84e3,
   0x6464014e790495d59cea8d6913dcdf18, 0xc5eaee4e263ddfe46d67af1a87e7fefd, 0xb8968f5ee66af5d7b914d75220e3eecd, 0x46a277ddd4228cdf113a49a16a5e509c,
   0xab26eafada1fbd6243b422e8d8c25ee3, 0x833547603428c348073beabf4366e57d, 0xb9eeeca089f5e5ee762f6071fce745d7, 0x36ee41547366d4d5ccf0d126e200c90c,
   0x9de8f5fe47d524519fb0d52c96a68410, 0xa5ae586d815ec618867625c71e534d34, 0x49f36de7140092dbae792410c38e38e3, 0x5aa28a28514514518618618659659659,
   0x40000000000000000000000000000000]

theorem xSquares_steps : ∀ i < 64, squares 2 (xSquares.getD i 0) = xSquares.getD (i + 1) 0 := by decide +kernel

theorem xSquares_eq (n : Nat) (hn : n ≤ 64) : squares (2 * n) (2 ^ 126) = xSquares.getD n 0 := by
  induction n with
  | zero => decide
  | succ n ih => rw [Nat.mul_succ, squares_add, ih (by omega), xSquares_steps n (by omega)]

theorem squares_x : squares 128 (2 ^ 126) = 2 ^ 126 := xSquares_eq 64 (Nat.le_refl _)

theorem squares_one (n : Nat) : squares n (2 ^ 127) = 2 ^ 127 := by
  induction n with
  | zero => rfl
  | succ n ih =>
    rw [squares_step, mult_one (by decide), ih]

theorem squares_bit {j : Nat} (hj : j < 128) : squares 128 (2 ^ j) = 2 ^ j := by
  rw [bit_mulXs j hj]
  generalize 127 - j = n
  induction n with
  | zero => exact squares_one 128
  | succ n ih =>
    show squares 128 (mulXs n (mulX (2 ^ 127))) = mulXs n (mulX (2 ^ 127))
    have hl : mulXs n (2 ^ 127) < 2 ^ 128 := mulXs_lt n (by decide)
    have hx : mulX (mulXs n (2 ^ 127)) = mult (2 ^ 126) (mulXs n (2 ^ 127)) := by
      rw [mult_bit (by decide)]; rfl
    rw [mulXs_mulX, hx, squares_mult 128 (by decide) hl, squares_x, ih]

/-- The map `squares 128` is the identity. -/
theorem squares_id {v : Nat} (hv : v < 2 ^ 128) : squares 128 v = v := by
  have h : squares 128 (v % 2 ^ 128) = v % 2 ^ 128 := by
    refine additive_ext (f := fun v => squares 128 (v % 2 ^ 128)) (g := fun v => v % 2 ^ 128) ?_ ?_ (n := 128) (fun j hj => ?_) hv
    · intro a b
      simp only
      rw [Nat.xor_mod_two_pow, squares_xor 128 (Nat.mod_lt _ (by decide)) (Nat.mod_lt _ (by decide))]
    · intro a b
      exact Nat.xor_mod_two_pow
    · have : 2 ^ j < 2 ^ 128 := Nat.pow_lt_pow_right (by decide) hj
      show squares 128 (2 ^ j % 2 ^ 128) = 2 ^ j % 2 ^ 128
      rw [Nat.mod_eq_of_lt this]
      exact squares_bit hj
  rwa [Nat.mod_eq_of_lt hv] at h

/-- What inverts the map from `v` to `v² + v`, up to 1, on the powers of two. -/
def unsquare : List Nat :=
  [0x0, 0x4a2ade42a1db558927495c4d4e62fc1, 0x35bd0e43ef6cf78dcef750ee63bd3171, 0x41d77801d619af2a38dab35b297373a6,
   0x36dc3b3404788e15d4cfd6f8f5447461, 0x7adc3b3404788e15d4cfd6f8f5447467, 0x5f67891c31b7edb03c86875f90384d1c, 0x646cca29e3d6cc8fd093e2fc4c0f4ad5,
   0x51eae8be2fe60df61bf9191de1788d94, 0x36e717e02724b8e1d1527df73b8e8241, 0x5f86cdbc744e28fe3430f49ddf071154, 0x2561da5c536a901fe562896ae4899333,
   0x99a6e1cca2f8641a0b0910804c90841, 0x2cfbb4409945165e45d21862e0409b32, 0xd94d9da18080030c4db699e5dc0, 0x197d9b438cafcf2f8e88275824a90133,
   0x645919a4b35879f7d7a68d71cb5770d5, 0x7348a7e5645f93d076e747a9d181ec26, 0x602105ae977251e64834e0c2dd2d5a94, 0x2c14dbb71e26fc964f314b9433eb3eb2,
   0x44eaa59bd8819a999287fa5ed58ad81, 0x77dcb1c60e3ad5c9e2190477682adba7, 0x701c741cbd9fc8b06b94eadf79b8c426, 0x46f806225397f491bb49eab33e4cf467,
   0x79b07befedd921e9cd751ec18ebeebe7, 0x56f3167fe31302df9eb885b869165d55, 0x6462e2cc93c28627d2d0526e0d66c2d5, 0x1a24eaaa541c8b0f9092b01169688933,
   0x4bf6a9a1f02e1f698fec4b1a74166be7, 0x21ce3a83c07744de74dad50f0d583b32, 0x634efa836deeebf650dae654442b4894, 0x224d20acccef41ee67fd0ac2e3641972,
   0x4bf8b9d33b8f38198de17cdee54751e7, 0x698e6217d7fa8627ef6aa903c013fa95, 0x457534e82f16f649aa2d862c91005ba7, 0x144558bb6c9dfcd7bc4c239cf48626f3,
   0x3cfddc25f2ae2df86391fd8d3387a7c0, 0x2bd77bb364af6b3fc733d8875e039333, 0x26d44eb77ddd535ff0b1c738de72bb33, 0x6aef57603cdbfceff55228f556d54755,
   0x285aabc679b16ad7d6c2852abfdb1eb3, 0x38e6217d7f479d8109554569546afc0, 0x79880aa666d696d9c926622882fff1e7, 0x312705524db61730583bcf844c342240,
   0x5c33b52f8947e9462158188b7248d294, 0x3bdc8ad604b36599e246fae899f68fc1, 0x72ccff3fd3d186182e1ce9a41041041, 0x5252e8c1d3a8e3be0d2c5beb59e57554,
   0x489a0b11781e0c1196cc4fdebc394c27, 0x1af0929920b9589f9fb368dce89d2373, 0x2f76850d57908a5e54a716d46cf0bb32, 0x3f46b4c41d7d395874f4e33b9d331780,
   0x7986f6afcfc951e9cb9188c1a5beebe7, 0x258e6f54bc4bf6f7ef54f70e70ef2ef3, 0x55aabdbeec28a2078079924a4cd2f295, 0x229a33517c61d3ee69739a8be16c1972,
   0x49a065cd7758d5196f0e3578d383201, 0x428019a10caacb8824c8241264b2fba6, 0x4622ba58b211bb21b69fb337b1785627, 0x5cea6fd5b105659e2d1ccaeb5d2c7d54,
   0x36e9eb0be64d6b99d3ec2e5e502bb781, 0x5ce7c3e3d68e47f62e5390ab45fe70d4, 0x329f337db88e12004e8e904902080000, 0x48afd66e759a994991d0e977a9aa5ba7,
   0x4a2ade42a1db559927495c4d4e62fc1, 0x41d77801d619af2838dab35b297373a6, 0x7adc3b3404788e11d4cfd6f8f5447467, 0x646cca29e3d6cc87d093e2fc4c0f4ad5,
   0x36e717e02724b8f1d1527df73b8e8241, 0x2561da5c536a903fe562896ae4899333, 0x2cfbb4409945161e45d21862e0409b32, 0x197d9b438cafcfaf8e88275824a90133,
   0x7348a7e5645f92d076e747a9d181ec26, 0x2c14dbb71e26fe964f314b9433eb3eb2, 0x77dcb1c60e3ad1c9e2190477682adba7, 0x46f806225397fc91bb49eab33e4cf467,
   0x56f3167fe31312df9eb885b869165d55, 0x1a24eaaa541cab0f9092b01169688933, 0x21ce3a83c07704de74dad50f0d583b32, 0x224d20acccefc1ee67fd0ac2e3641972,
   0x698e6217d7fb8627ef6aa903c013fa95, 0x144558bb6c9ffcd7bc4c239cf48626f3, 0x2bd77bb364ab6b3fc733d8875e039333, 0x6aef57603cd3fceff55228f556d54755,
   0x38e6217d7e479d8109554569546afc0, 0x312705524d961730583bcf844c342240, 0x3bdc8ad604f36599e246fae899f68fc1, 0x5252e8c1d328e3be0d2c5beb59e57554,
   0x1af0929921b9589f9fb368dce89d2373, 0x3f46b4c41f7d395874f4e33b9d331780, 0x258e6f54b84bf6f7ef54f70e70ef2ef3, 0x229a33517461d3ee69739a8be16c1972,
   0x428019a11caacb8824c8241264b2fba6, 0x5cea6fd59105659e2d1ccaeb5d2c7d54, 0x5ce7c3e3968e47f62e5390ab45fe70d4, 0x48afd66ef59a994991d0e977a9aa5ba7,
   0x41d77800d619af2838dab35b297373a6, 0x646cca2be3d6cc87d093e2fc4c0f4ad5, 0x2561da58536a903fe562896ae4899333, 0x197d9b4b8cafcfaf8e88275824a90133,
   0x2c14dba71e26fe964f314b9433eb3eb2, 0x46f806025397fc91bb49eab33e4cf467, 0x1a24eaea541cab0f9092b01169688933, 0x224d202cccefc1ee67fd0ac2e3641972,
   0x144559bb6c9ffcd7bc4c239cf48626f3, 0x6aef55603cd3fceff55228f556d54755, 0x312701524d961730583bcf844c342240, 0x5252e0c1d328e3be0d2c5beb59e57554,
   0x3f46a4c41f7d395874f4e33b9d331780, 0x229a13517461d3ee69739a8be16c1972, 0x5cea2fd59105659e2d1ccaeb5d2c7d54, 0x48af566ef59a994991d0e977a9aa5ba7,
   0x646dca2be3d6cc87d093e2fc4c0f4ad5, 0x197f9b4b8cafcfaf8e88275824a90133, 0x46fc06025397fc91bb49eab33e4cf467, 0x2245202cccefc1ee67fd0ac2e3641972,
   0x6aff55603cd3fceff55228f556d54755, 0x5272e0c1d328e3be0d2c5beb59e57554, 0x22da13517461d3ee69739a8be16c1972, 0x482f566ef59a994991d0e977a9aa5ba7,
   0x187f9b4b8cafcfaf8e88275824a90133, 0x2045202cccefc1ee67fd0ac2e3641972, 0x5672e0c1d328e3be0d2c5beb59e57554, 0x402f566ef59a994991d0e977a9aa5ba7,
   0x3045202cccefc1ee67fd0ac2e3641972, 0x602f566ef59a994991d0e977a9aa5ba7, 0x202f566ef59a994991d0e977a9aa5ba7, 0x10d04d25f93556e69f58ce2f8d035a94]

/-- The sum of the numbers in the places where `v` has bits, from the place `i` on. -/
def sumAt : List Nat → Nat → Nat → Nat
  | [], _, _ => 0
  | m :: ms, i, v => (if v.testBit i then m else 0) ^^^ sumAt ms (i + 1) v

theorem sumAt_additive (ms : List Nat) (i : Nat) : Additive (sumAt ms i) := by
  induction ms generalizing i with
  | nil => intro a b; exact (Nat.xor_self 0).symm
  | cons m ms ih =>
    intro a b
    simp only [sumAt, Nat.testBit_xor]
    rw [ih (i + 1) a b]
    cases a.testBit i <;> cases b.testBit i <;> simp
    · ac_rfl
    · ac_rfl
    · have : (m ^^^ sumAt ms (i + 1) a) ^^^ (m ^^^ sumAt ms (i + 1) b) = sumAt ms (i + 1) a ^^^ sumAt ms (i + 1) b ^^^ (m ^^^ m) := by ac_rfl
      rw [this, Nat.xor_self, Nat.xor_zero]

theorem unsquare_bits : ∀ j < 127, sumAt unsquare 0 (mult (2 ^ j) (2 ^ j) ^^^ 2 ^ j) = 2 ^ j := by decide +kernel

/-- Only 0 and 1 are their own squares. -/
theorem idempotent {v : Nat} (hv : v < 2 ^ 128) (h : mult v v = v) : v = 0 ∨ v = 2 ^ 127 := by
  have key : sumAt unsquare 0 (mult (v % 2 ^ 127) (v % 2 ^ 127) ^^^ v % 2 ^ 127) = v % 2 ^ 127 := by
    refine additive_ext (f := fun v => sumAt unsquare 0 (mult (v % 2 ^ 127) (v % 2 ^ 127) ^^^ v % 2 ^ 127)) (g := fun v => v % 2 ^ 127)
      ?_ ?_ (n := 128) (fun j hj => ?_) hv
    · intro a b
      simp only
      have ha : a % 2 ^ 127 < 2 ^ 128 := Nat.lt_trans (Nat.mod_lt _ (by decide)) (by decide)
      have hb : b % 2 ^ 127 < 2 ^ 128 := Nat.lt_trans (Nat.mod_lt _ (by decide)) (by decide)
      rw [Nat.xor_mod_two_pow, square_additive ha hb, ← sumAt_additive]
      congr 1
      ac_rfl
    · intro a b
      exact Nat.xor_mod_two_pow
    · show sumAt unsquare 0 (mult (2 ^ j % 2 ^ 127) (2 ^ j % 2 ^ 127) ^^^ 2 ^ j % 2 ^ 127) = 2 ^ j % 2 ^ 127
      by_cases hj' : j < 127
      · have : 2 ^ j < 2 ^ 127 := Nat.pow_lt_pow_right (by decide) hj'
        rw [Nat.mod_eq_of_lt this]
        exact unsquare_bits j hj'
      · have : j = 127 := by omega
        subst this
        decide +kernel
  have hs := split_bit 127 v hv
  generalize hw : v % 2 ^ 127 = w at *
  have hwl : w < 2 ^ 128 := by
    rw [← hw]; exact Nat.lt_trans (Nat.mod_lt _ (by decide)) (by decide)
  have hone : mult (if v.testBit 127 then 2 ^ 127 else 0) (if v.testBit 127 then 2 ^ 127 else 0) = (if v.testBit 127 then 2 ^ 127 else 0) := by
    split
    · decide +kernel
    · exact mult_zero 0
  have hz : mult w w ^^^ w = 0 := by
    have h2 : mult v v ^^^ v = 0 := by rw [h, Nat.xor_self]
    rw [hs, square_additive hwl (by split <;> decide), hone] at h2
    generalize (if v.testBit 127 then 2 ^ 127 else 0) = o at h2
    have : mult w w ^^^ o ^^^ (w ^^^ o) = mult w w ^^^ w ^^^ (o ^^^ o) := by ac_rfl
    rwa [this, Nat.xor_self, Nat.xor_zero] at h2
  rw [hz, (sumAt_additive unsquare 0).zero] at key
  rw [← key, Nat.zero_xor] at hs
  split at hs
  · exact Or.inr hs
  · exact Or.inl hs

/-- `v` to the power 2^n - 1. -/
def almost (v : Nat) : Nat → Nat
  | 0 => 2 ^ 127
  | n + 1 => mult (mult (almost v n) (almost v n)) v

theorem almost_lt {v : Nat} (hv : v < 2 ^ 128) (n : Nat) : almost v n < 2 ^ 128 := by
  cases n with
  | zero => exact (by decide : 2 ^ 127 < 2 ^ 128)
  | succ n => exact mult_lt hv

theorem squares_succ (n v : Nat) : squares (n + 1) v = mult (squares n v) (squares n v) := by
  induction n generalizing v with
  | zero => rfl
  | succ n ih => exact ih (mult v v)

theorem almost_mult {v : Nat} (hv : v < 2 ^ 128) (n : Nat) : mult (almost v n) v = squares n v := by
  induction n with
  | zero => rw [almost, mult_comm (by decide) hv, mult_one hv]; rfl
  | succ n ih =>
    have ha := almost_lt hv n
    rw [squares_succ, ← ih, square_mult ha hv]
    exact mult_assoc (mult_lt ha) hv hv

/-- Every block but 0 has an inverse. -/
theorem inverse {v : Nat} (hv : v < 2 ^ 128) (h0 : v ≠ 0) : ∃ w < 2 ^ 128, mult w v = 2 ^ 127 := by
  have he : mult (almost v 128) v = v := by rw [almost_mult hv, squares_id hv]
  have ha := almost_lt hv 127
  have hi : mult (almost v 128) (almost v 128) = almost v 128 := by
    have e : almost v 128 = mult (mult (almost v 127) (almost v 127)) v := rfl
    conv => lhs; rw [mult_comm (almost_lt hv 128) (almost_lt hv 128)]; arg 1; rw [e]
    rw [mult_assoc (mult_lt ha) hv (almost_lt hv 128), mult_comm hv (almost_lt hv 128), he]
    exact e.symm
  rcases idempotent (almost_lt hv 128) hi with h | h
  · rw [h, zero_mult] at he
    exact absurd he.symm h0
  · exact ⟨mult (almost v 127) (almost v 127), mult_lt ha, h⟩

theorem no_zero_divisors {a b : Nat} (ha : a < 2 ^ 128) (hb : b < 2 ^ 128) (h : mult a b = 0) (h0 : a ≠ 0) : b = 0 := by
  obtain ⟨w, hw, he⟩ := inverse ha h0
  have : mult (mult w a) b = 0 := by rw [mult_assoc hw ha hb, h, mult_zero]
  rwa [he, mult_comm (by decide) hb, mult_one hb] at this

/-! ## The roots of polynomials -/

/-- A polynomial at `h`: coefficients from the highest one down. -/
def horner (h : Nat) : Nat → List Nat → Nat
  | c, [] => c
  | c, x :: xs => horner h (mult c h ^^^ x) xs

/-- The coefficients that are left by the division by `h - r`, after the first one. -/
def quotient (r : Nat) : Nat → List Nat → List Nat
  | _, [] => []
  | _, [_] => []
  | c, x :: y :: xs => (mult c r ^^^ x) :: quotient r (mult c r ^^^ x) (y :: xs)

theorem quotient_length (r c x : Nat) (xs : List Nat) : (quotient r c (x :: xs)).length = xs.length := by
  induction xs generalizing c x with
  | nil => rfl
  | cons y xs ih => simp [quotient, ih]

theorem horner_lt {h c : Nat} {xs : List Nat} (hh : h < 2 ^ 128) (hc : c < 2 ^ 128) (hx : ∀ x ∈ xs, x < 2 ^ 128) : horner h c xs < 2 ^ 128 := by
  induction xs generalizing c with
  | nil => exact hc
  | cons x xs ih =>
    exact ih (Nat.xor_lt_two_pow (mult_lt hh) (hx x (by simp))) (fun y hy => hx y (by simp [hy]))

theorem quotient_lt {r c : Nat} {xs : List Nat} (hr : r < 2 ^ 128) (hc : c < 2 ^ 128) (hx : ∀ x ∈ xs, x < 2 ^ 128) :
    ∀ x ∈ quotient r c xs, x < 2 ^ 128 := by
  induction xs generalizing c with
  | nil => simp [quotient]
  | cons x xs ih =>
    cases xs with
    | nil => simp [quotient]
    | cons y xs =>
      have hb : mult c r ^^^ x < 2 ^ 128 := Nat.xor_lt_two_pow (mult_lt hr) (hx x (by simp))
      intro z hz
      rcases List.mem_cons.1 hz with rfl | hz
      · exact hb
      · exact ih hb (fun w hw => hx w (by simp [hw])) z hz

/-- Division with remainder: `q` is what is there of the quotient, `b` of the remainder. -/
theorem horner_divide {h r : Nat} (hh : h < 2 ^ 128) (hr : r < 2 ^ 128) (x : Nat) (xs : List Nat) (hx : ∀ y ∈ x :: xs, y < 2 ^ 128)
    (q b : Nat) (hq : q < 2 ^ 128) (hb : b < 2 ^ 128) :
    horner h (mult (h ^^^ r) q ^^^ b) (x :: xs) =
      mult (h ^^^ r) (horner h (mult q h ^^^ b) (quotient r b (x :: xs))) ^^^ horner r b (x :: xs) := by
  induction xs generalizing x q b with
  | nil =>
    simp only [horner, quotient]
    have hd : h ^^^ r < 2 ^ 128 := Nat.xor_lt_two_pow hh hr
    have e1 := mult_left h (mult (h ^^^ r) q) b
    have e2 := mult_right (h ^^^ r) (mult q h) b
    have e3 := mult_left b h r
    simp only at e1 e2 e3
    rw [e1, e2, mult_assoc hd hq hh, e3, mult_comm hb hh, mult_comm hb hr]
    have : mult (h ^^^ r) (mult q h) ^^^ (mult h b ^^^ mult r b) ^^^ (mult r b ^^^ x) =
      mult (h ^^^ r) (mult q h) ^^^ mult h b ^^^ x ^^^ (mult r b ^^^ mult r b) := by ac_rfl
    rw [this, Nat.xor_self, Nat.xor_zero]
  | cons y xs ih =>
    have hd : h ^^^ r < 2 ^ 128 := Nat.xor_lt_two_pow hh hr
    have hq' : mult q h ^^^ b < 2 ^ 128 := Nat.xor_lt_two_pow (mult_lt hh) hb
    have hb' : mult b r ^^^ x < 2 ^ 128 := Nat.xor_lt_two_pow (mult_lt hr) (hx x (by simp))
    have := ih y (fun z hz => hx z (List.mem_cons_of_mem _ hz)) (mult q h ^^^ b) (mult b r ^^^ x) hq' hb'
    have e : mult (mult (h ^^^ r) q ^^^ b) h ^^^ x = mult (h ^^^ r) (mult q h ^^^ b) ^^^ (mult b r ^^^ x) := by
      have e1 := mult_left h (mult (h ^^^ r) q) b
      have e2 := mult_right (h ^^^ r) (mult q h) b
      have e3 := mult_left b h r
      simp only at e1 e2 e3
      rw [e1, e2, mult_assoc hd hq hh, e3, mult_comm hb hh, mult_comm hb hr]
      have : mult (h ^^^ r) (mult q h) ^^^ (mult h b ^^^ mult r b) ^^^ (mult r b ^^^ x) =
        mult (h ^^^ r) (mult q h) ^^^ mult h b ^^^ x ^^^ (mult r b ^^^ mult r b) := by ac_rfl
      rw [this, Nat.xor_self, Nat.xor_zero]
    show horner h (mult (mult (h ^^^ r) q ^^^ b) h ^^^ x) (y :: xs) = _
    rw [e, this]
    rfl

/-- A polynomial has no more roots than its degree. -/
theorem roots_le {c : Nat} {xs : List Nat} (hc : c < 2 ^ 128) (h0 : c ≠ 0) (hx : ∀ x ∈ xs, x < 2 ^ 128) (roots : List Nat)
    (hn : roots.Nodup) (hr : ∀ r ∈ roots, r < 2 ^ 128 ∧ horner r c xs = 0) : roots.length ≤ xs.length := by
  generalize hl : xs.length = n
  induction n generalizing xs roots with
  | zero =>
    have : xs = [] := List.length_eq_zero_iff.1 hl
    subst this
    cases roots with
    | nil => exact Nat.le_refl _
    | cons r rs => exact absurd (hr r (by simp)).2 h0
  | succ n ih =>
    cases roots with
    | nil => exact Nat.zero_le _
    | cons r rs =>
      rcases xs with _ | ⟨x, xs⟩
      · simp at hl
      obtain ⟨hr1, hr2⟩ := hr r (by simp)
      rw [List.nodup_cons] at hn
      have := ih (quotient_lt hr1 hc hx) rs hn.2 (fun s hs => ?_) (by rw [quotient_length]; simpa using hl)
      · simpa using this
      · obtain ⟨hs1, hs2⟩ := hr s (by simp [hs])
        refine ⟨hs1, ?_⟩
        have hd := horner_divide hs1 hr1 x xs hx 0 c (by decide) hc
        rw [mult_zero, zero_mult, Nat.zero_xor, hs2, hr2, Nat.xor_zero] at hd
        refine no_zero_divisors (Nat.xor_lt_two_pow hs1 hr1) (horner_lt hs1 hc (quotient_lt hr1 hc hx)) hd.symm (fun he => ?_)
        have := xor_cancel he
        subst this
        exact hn.1 hs

end Rops
