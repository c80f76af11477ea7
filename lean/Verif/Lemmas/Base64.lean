import Verif.Model.Base64
import Verif.Lemmas.Text
/-! Lemmas on base64. -/

namespace Rops.Base64

theorem val_char {n : Nat} (h : n < 64) : val (char n) = some n := by
  have : ∀ m : Fin 64, val (char m.val) = some m.val := by decide
  exact this ⟨n, h⟩

theorem char_ne_pad {n : Nat} (h : n < 64) : char n ≠ '=' := by
  have : ∀ m : Fin 64, char m.val ≠ '=' := by decide
  exact this ⟨n, h⟩

theorem val_pad : val '=' = none := by decide

theorem char_toNat_eq {c d : Char} (h : c.toNat = d.toNat) : c = d :=
  Char.toNat_inj.1 h

theorem val_eq_some {c : Char} {n : Nat} (h : val c = some n) : n < 64 ∧ char n = c := by
  have key : ∀ m : Fin 128, ∀ k, val (Char.ofNat m.val) = some k → k < 64 ∧ char k = Char.ofNat m.val := by
    intro m k hk
    have : ∀ m : Fin 128, ((val (Char.ofNat m.val)).all fun k => decide (k < 64 ∧ char k = Char.ofNat m.val)) = true := by
      decide
    have := this m
    rw [hk] at this
    simpa using this
  have hc : c.toNat < 128 := by
    unfold val at h
    by_cases hlt : c.toNat < 128
    · exact hlt
    · simp only at h
      rw [if_neg (by omega), if_neg (by omega), if_neg (by omega), if_neg (by omega), if_neg (by omega)] at h
      cases h
  have he : Char.ofNat c.toNat = c := Char.ofNat_toNat c
  have := key ⟨c.toNat, hc⟩ n
  simp only [he] at this
  exact this h

/-- Encoding without the padding. -/
def encodeNoPad : Bytes → Str
  | [] => []
  | [a] =>
    let n := a.toNat * 65536
    [char (n / 262144), char (n / 4096 % 64)]
  | [a, b] =>
    let n := a.toNat * 65536 + b.toNat * 256
    [char (n / 262144), char (n / 4096 % 64), char (n / 64 % 64)]
  | a :: b :: c :: rest =>
    let n := a.toNat * 65536 + b.toNat * 256 + c.toNat
    char (n / 262144) :: char (n / 4096 % 64) :: char (n / 64 % 64) :: char (n % 64) ::
      encodeNoPad rest

theorem encode_eq (b : Bytes) : ∃ k, encode b = encodeNoPad b ++ List.replicate k '=' := by
  fun_induction encode b with
  | case1 => exact ⟨0, rfl⟩
  | case2 => exact ⟨2, rfl⟩
  | case3 => exact ⟨1, rfl⟩
  | case4 a b c rest n ih =>
    obtain ⟨k, hk⟩ := ih
    exact ⟨k, by simp [encodeNoPad, hk, n]⟩

theorem pad_not_mem_encodeNoPad (b : Bytes) : '=' ∉ encodeNoPad b := by
  fun_induction encodeNoPad b with
  | case1 => simp
  | case2 a n =>
    have := a.toNat_lt
    simp only [List.mem_cons, List.not_mem_nil, or_false, not_or]
    exact ⟨(char_ne_pad (by omega)).symm, (char_ne_pad (by omega)).symm⟩
  | case3 a b n =>
    have := a.toNat_lt
    have := b.toNat_lt
    simp only [List.mem_cons, List.not_mem_nil, or_false, not_or]
    exact ⟨(char_ne_pad (by omega)).symm, (char_ne_pad (by omega)).symm, (char_ne_pad (by omega)).symm⟩
  | case4 a b c rest n ih =>
    have := a.toNat_lt
    have := b.toNat_lt
    have := c.toNat_lt
    simp only [List.mem_cons, not_or]
    exact ⟨(char_ne_pad (by omega)).symm, (char_ne_pad (by omega)).symm,
      (char_ne_pad (by omega)).symm, (char_ne_pad (by omega)).symm, ih⟩

theorem ofNat_eq {a : UInt8} {n : Nat} (h : n = a.toNat) : UInt8.ofNat n = a := by
  subst h; simp

theorem decodeNoPad_encodeNoPad (b : Bytes) : decodeNoPad (encodeNoPad b) = some b := by
  fun_induction encodeNoPad b with
  | case1 => rfl
  | case2 a n =>
    have := a.toNat_lt
    simp only [decodeNoPad]
    rw [val_char (by omega), val_char (by omega)]
    simp only [Option.bind_eq_bind, Option.bind_some]
    rw [if_pos (by omega), ofNat_eq (a := a) (by omega)]
  | case3 a b n =>
    have := a.toNat_lt
    have := b.toNat_lt
    simp only [decodeNoPad]
    rw [val_char (by omega), val_char (by omega), val_char (by omega)]
    simp only [Option.bind_eq_bind, Option.bind_some]
    rw [if_pos (by omega), ofNat_eq (a := a) (by omega), ofNat_eq (a := b) (by omega)]
  | case4 a b c rest n ih =>
    have := a.toNat_lt
    have := b.toNat_lt
    have := c.toNat_lt
    simp only [decodeNoPad]
    rw [val_char (by omega), val_char (by omega), val_char (by omega), val_char (by omega), ih]
    simp only [Option.bind_eq_bind, Option.bind_some]
    rw [ofNat_eq (a := a) (by omega), ofNat_eq (a := b) (by omega), ofNat_eq (a := c) (by omega)]

theorem toNat_ofNat_lt {n : Nat} (h : n < 256) : (UInt8.ofNat n).toNat = n := by
  rw [UInt8.toNat_ofNat']; exact Nat.mod_eq_of_lt h

theorem encodeNoPad_decodeNoPad {s : Str} {b : Bytes} (h : decodeNoPad s = some b) :
    encodeNoPad b = s := by
  fun_induction decodeNoPad s generalizing b with
  | case1 => cases h; rfl
  | case2 => cases h
  | case3 x y =>
    simp only [Option.bind_eq_bind, Option.bind_eq_some_iff] at h
    obtain ⟨nx, hx, ny, hy, h⟩ := h
    split at h
    · cases h
      obtain ⟨hx1, hx2⟩ := val_eq_some hx
      obtain ⟨hy1, hy2⟩ := val_eq_some hy
      simp only [encodeNoPad]
      rw [toNat_ofNat_lt (by omega), ← hx2, ← hy2]
      simp only [List.cons.injEq, and_true]
      exact ⟨congrArg char (by omega), congrArg char (by omega)⟩
    · cases h
  | case4 x y z =>
    simp only [Option.bind_eq_bind, Option.bind_eq_some_iff] at h
    obtain ⟨nx, hx, ny, hy, nz, hz, h⟩ := h
    split at h
    · cases h
      obtain ⟨hx1, hx2⟩ := val_eq_some hx
      obtain ⟨hy1, hy2⟩ := val_eq_some hy
      obtain ⟨hz1, hz2⟩ := val_eq_some hz
      simp only [encodeNoPad]
      rw [toNat_ofNat_lt (by omega), toNat_ofNat_lt (by omega), ← hx2, ← hy2, ← hz2]
      simp only [List.cons.injEq, and_true]
      exact ⟨congrArg char (by omega), congrArg char (by omega), congrArg char (by omega)⟩
    · cases h
  | case5 x y z w rest ih =>
    simp only [Option.bind_eq_bind, Option.bind_eq_some_iff] at h
    obtain ⟨nx, hx, ny, hy, nz, hz, nw, hw, r, hr, h⟩ := h
    cases h
    obtain ⟨hx1, hx2⟩ := val_eq_some hx
    obtain ⟨hy1, hy2⟩ := val_eq_some hy
    obtain ⟨hz1, hz2⟩ := val_eq_some hz
    obtain ⟨hw1, hw2⟩ := val_eq_some hw
    simp only [encodeNoPad]
    rw [toNat_ofNat_lt (by omega), toNat_ofNat_lt (by omega), toNat_ofNat_lt (by omega),
      ih hr, ← hx2, ← hy2, ← hz2, ← hw2]
    simp only [List.cons.injEq, and_true]
    exact ⟨congrArg char (by omega), congrArg char (by omega), congrArg char (by omega),
      congrArg char (by omega)⟩

theorem trim_encode (b : Bytes) : trimEndMatches '=' (encode b) = encodeNoPad b := by
  obtain ⟨k, hk⟩ := encode_eq b
  rw [hk, trimEndMatches_replicate, trimEndMatches_of_last_ne]
  intro h
  exact pad_not_mem_encodeNoPad b (List.mem_of_getLast? h)

theorem decode_encode (b : Bytes) : decode (encode b) = some b := by
  rw [decode, trim_encode, decodeNoPad_encodeNoPad]

/-- The texts decoding to `b` are exactly the unpadded encoding of `b` followed by
any number of `=`. -/
theorem decode_eq_some {s : Str} {b : Bytes} :
    decode s = some b ↔ ∃ n, s = encodeNoPad b ++ List.replicate n '=' := by
  constructor
  · intro h
    obtain ⟨n, hn⟩ := trimEndMatches_spec '=' s
    refine ⟨n, ?_⟩
    rw [encodeNoPad_decodeNoPad h]; exact hn
  · rintro ⟨n, rfl⟩
    rw [decode, trimEndMatches_replicate, trimEndMatches_of_last_ne, decodeNoPad_encodeNoPad]
    intro h
    exact pad_not_mem_encodeNoPad b (List.mem_of_getLast? h)

theorem mem_char {c : Char} {b : Bytes} (h : c ∈ encode b) : c = '=' ∨ ∃ n, n < 64 ∧ c = char n := by
  fun_induction encode b with
  | case1 => simp at h
  | case2 a n =>
    have := a.toNat_lt
    simp only [List.mem_cons, List.not_mem_nil, or_false] at h
    rcases h with h | h | h | h
    · exact .inr ⟨_, by omega, h⟩
    · exact .inr ⟨_, by omega, h⟩
    · exact .inl h
    · exact .inl h
  | case3 a b n =>
    have := a.toNat_lt
    have := b.toNat_lt
    simp only [List.mem_cons, List.not_mem_nil, or_false] at h
    rcases h with h | h | h | h
    · exact .inr ⟨_, by omega, h⟩
    · exact .inr ⟨_, by omega, h⟩
    · exact .inr ⟨_, by omega, h⟩
    · exact .inl h
  | case4 a b c rest n ih =>
    have := a.toNat_lt
    have := b.toNat_lt
    have := c.toNat_lt
    simp only [List.mem_cons] at h
    rcases h with h | h | h | h | h
    · exact .inr ⟨_, by omega, h⟩
    · exact .inr ⟨_, by omega, h⟩
    · exact .inr ⟨_, by omega, h⟩
    · exact .inr ⟨_, by omega, h⟩
    · exact ih h

theorem char_ne_comma {n : Nat} (h : n < 64) : char n ≠ ',' := by
  have : ∀ m : Fin 64, char m.val ≠ ',' := by decide
  exact this ⟨n, h⟩

theorem comma_not_mem_encode (b : Bytes) : ',' ∉ encode b := by
  intro h
  rcases mem_char h with h | ⟨n, hn, h⟩
  · exact absurd h (by decide)
  · exact char_ne_comma hn h.symm

theorem decodeSlice_encode (b : Bytes) : decodeSlice b.length (encode b) = .ok b := by
  simp [decodeSlice, decode_encode]

end Rops.Base64
