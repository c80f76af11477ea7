import Verif.Model.Text
/-! Lemmas on the text functions. -/

namespace Rops

theorem utf8_append (a b : Str) : utf8 (a ++ b) = utf8 a ++ utf8 b := by
  simp [utf8]

theorem utf8_nil : utf8 [] = [] := rfl

theorem mk_toArray_utf8 (s : Str) : (⟨(utf8 s).toArray⟩ : ByteArray) = s.utf8Encode := by
  unfold List.utf8Encode utf8
  apply ByteArray.ext
  simp

theorem utf8?_utf8 (s : Str) : utf8? (utf8 s) = some s := by
  unfold utf8?
  rw [mk_toArray_utf8]
  simp

theorem utf8_injective {a b : Str} (h : utf8 a = utf8 b) : a = b := by
  have := utf8?_utf8 a
  rw [h, utf8?_utf8] at this
  simpa using this.symm

theorem utf8_of_utf8? {b : Bytes} {s : Str} (h : utf8? b = some s) : utf8 s = b := by
  unfold utf8? at h
  rw [Option.map_eq_some_iff] at h
  obtain ⟨arr, h1, h2⟩ := h
  have hs : (ByteArray.utf8Decode? ⟨b.toArray⟩).isSome := by rw [h1]; rfl
  have h3 := ByteArray.utf8Encode_get_utf8Decode? (b := ⟨b.toArray⟩) (h := hs)
  simp only [h1, Option.get_some, h2] at h3
  rw [← mk_toArray_utf8] at h3
  have := congrArg (fun x => x.data.toList) h3
  simpa using this

theorem splitOn_ne_nil (c : Char) (s : Str) : splitOn c s ≠ [] := by
  cases s with
  | nil => simp [splitOn]
  | cons x xs =>
    unfold splitOn
    split
    · simp
    · split <;> simp

theorem splitOn_of_not_mem {c : Char} {s : Str} (h : c ∉ s) : splitOn c s = [s] := by
  induction s with
  | nil => rfl
  | cons x xs ih =>
    simp only [List.mem_cons, not_or] at h
    unfold splitOn
    rw [if_neg (fun e => h.1 e.symm), ih h.2]

theorem splitOn_append {c : Char} {a : Str} (b : Str) (h : c ∉ a) :
    splitOn c (a ++ c :: b) = a :: splitOn c b := by
  induction a with
  | nil => simp [splitOn]
  | cons x xs ih =>
    simp only [List.mem_cons, not_or] at h
    rw [List.cons_append, splitOn, if_neg (fun e => h.1 e.symm), ih h.2]

theorem splitOn_append_sep (c : Char) (a b : Str) :
    splitOn c (a ++ c :: b) = splitOn c a ++ splitOn c b := by
  induction a with
  | nil => simp [splitOn]
  | cons x xs ih =>
    rw [List.cons_append, splitOn, splitOn, ih]
    split
    · rfl
    · cases hs : splitOn c xs with
      | nil => exact absurd hs (splitOn_ne_nil c xs)
      | cons w ws => rfl

/-- Joining the pieces with the separator gives the text back. -/
def joinWith (c : Char) : List Str → Str
  | [] => []
  | [w] => w
  | w :: w' :: ws => w ++ c :: joinWith c (w' :: ws)

theorem joinWith_splitOn (c : Char) (s : Str) : joinWith c (splitOn c s) = s := by
  induction s with
  | nil => rfl
  | cons x xs ih =>
    unfold splitOn
    split
    · rename_i h
      have hne := splitOn_ne_nil c xs
      cases hs : splitOn c xs with
      | nil => exact absurd hs hne
      | cons w ws => rw [joinWith, ← hs, ih, h]; rfl
    · cases hs : splitOn c xs with
      | nil => exact absurd hs (splitOn_ne_nil c xs)
      | cons w ws =>
        rw [hs] at ih
        cases ws with
        | nil => simp only [joinWith] at ih ⊢; rw [ih]
        | cons w' ws' => simp only [joinWith] at ih ⊢; rw [← ih]; rfl

theorem not_mem_of_mem_splitOn {c : Char} {s w : Str} (h : w ∈ splitOn c s) : c ∉ w := by
  induction s generalizing w with
  | nil => simp [splitOn] at h; subst h; simp
  | cons x xs ih =>
    unfold splitOn at h
    split at h
    · rcases List.mem_cons.1 h with rfl | h
      · simp
      · exact ih h
    · rename_i hx
      cases hs : splitOn c xs with
      | nil => exact absurd hs (splitOn_ne_nil c xs)
      | cons v vs =>
        rw [hs] at h
        simp only [List.mem_cons] at h
        rcases h with rfl | h
        · have := ih (w := v) (by rw [hs]; simp)
          simp only [List.mem_cons, not_or]
          exact ⟨fun e => hx e.symm, this⟩
        · exact ih (by rw [hs]; simp [h])

theorem splitOn_joinWith {c : Char} {ws : List Str} (hne : ws ≠ []) (h : ∀ w ∈ ws, c ∉ w) :
    splitOn c (joinWith c ws) = ws := by
  induction ws with
  | nil => exact absurd rfl hne
  | cons w ws ih =>
    cases ws with
    | nil => exact splitOn_of_not_mem (h w (by simp))
    | cons w' ws' =>
      rw [joinWith, splitOn_append _ (h w (by simp)), ih (by simp) (fun v hv => h v (by simp [hv]))]

theorem stripPrefix_append (p s : Str) : stripPrefix p (p ++ s) = some s := by
  induction p with
  | nil => simp [stripPrefix]
  | cons x xs ih => simp [stripPrefix, ih]

theorem stripPrefix_eq_some {p s r : Str} : stripPrefix p s = some r ↔ s = p ++ r := by
  induction p generalizing s with
  | nil => simp [stripPrefix]
  | cons x xs ih =>
    cases s with
    | nil => simp [stripPrefix]
    | cons y ys =>
      simp only [stripPrefix, List.cons_append, List.cons.injEq]
      split
      · rename_i h; rw [ih]; simp [h]
      · rename_i h; simp only [reduceCtorEq, false_iff, not_and]; intro e; exact absurd e.symm h

theorem stripSuffixChar_append (c : Char) (s : Str) : stripSuffixChar c (s ++ [c]) = some s := by
  simp [stripSuffixChar]

theorem stripSuffixChar_eq_some {c : Char} {s r : Str} :
    stripSuffixChar c s = some r ↔ s = r ++ [c] := by
  unfold stripSuffixChar
  constructor
  · intro h
    split at h
    · rename_i hl
      cases h
      have hne : s ≠ [] := by rintro rfl; simp at hl
      have := List.dropLast_concat_getLast hne
      rw [List.getLast?_eq_some_getLast hne] at hl
      simp only [Option.some.injEq] at hl
      rw [hl] at this
      exact this.symm
    · cases h
  · rintro rfl; simp

theorem trimEndMatches_of_last_ne {c : Char} {s : Str} (h : s.getLast? ≠ some c) :
    trimEndMatches c s = s := by
  unfold trimEndMatches
  rw [List.getLast?_eq_head?_reverse] at h
  cases hr : s.reverse with
  | nil => simp at hr; simp [hr]
  | cons x xs =>
    rw [hr] at h
    have hx : x ≠ c := by simpa using h
    rw [List.dropWhile_cons_of_neg (by simpa using hx), ← hr, List.reverse_reverse]

theorem trimEndMatches_concat (c : Char) (s : Str) :
    trimEndMatches c (s ++ [c]) = trimEndMatches c s := by
  simp [trimEndMatches]

theorem trimEndMatches_replicate (c : Char) (s : Str) (n : Nat) :
    trimEndMatches c (s ++ List.replicate n c) = trimEndMatches c s := by
  induction n with
  | zero => simp
  | succ n ih =>
    rw [List.replicate_succ', ← List.append_assoc, trimEndMatches_concat, ih]

theorem trimEndMatches_spec (c : Char) (s : Str) :
    ∃ n, s = trimEndMatches c s ++ List.replicate n c := by
  generalize hr : s.reverse = r
  have hs : s = r.reverse := by rw [← hr, List.reverse_reverse]
  subst hs
  simp only [trimEndMatches, List.reverse_reverse]
  clear hr
  induction r with
  | nil => exact ⟨0, by simp⟩
  | cons x xs ih =>
    simp only [List.dropWhile]
    split
    · rename_i h
      obtain ⟨n, hn⟩ := ih
      refine ⟨n + 1, ?_⟩
      simp only [beq_iff_eq] at h
      rw [List.reverse_cons, List.replicate_succ', ← List.append_assoc, ← hn, h]
    · exact ⟨0, by simp⟩

theorem getLast?_trimEndMatches_ne (c : Char) (s : Str) :
    (trimEndMatches c s).getLast? ≠ some c := by
  unfold trimEndMatches
  rw [List.getLast?_reverse]
  intro h
  have := List.head?_dropWhile_not (· == c) s.reverse
  rw [h] at this
  simp at this

theorem splitOnce_append {c : Char} {a : Str} (b : Str) (h : c ∉ a) :
    splitOnce c (a ++ c :: b) = some (a, b) := by
  induction a with
  | nil => simp [splitOnce]
  | cons x xs ih =>
    simp only [List.mem_cons, not_or] at h
    rw [List.cons_append, splitOnce, if_neg (fun e => h.1 e.symm), ih h.2]; rfl

theorem splitOnce_eq_none {c : Char} {s : Str} : splitOnce c s = none ↔ c ∉ s := by
  induction s with
  | nil => simp [splitOnce]
  | cons x xs ih =>
    unfold splitOnce
    split
    · rename_i h; simp [h]
    · rename_i h; simp only [Option.map_eq_none_iff, ih, List.mem_cons, not_or]
      exact ⟨fun hh => ⟨fun e => h e.symm, hh⟩, fun hh => hh.2⟩

theorem splitOnce_eq_some {c : Char} {s a b : Str} :
    splitOnce c s = some (a, b) ↔ s = a ++ c :: b ∧ c ∉ a := by
  constructor
  · intro h
    induction s generalizing a with
    | nil => simp [splitOnce] at h
    | cons x xs ih =>
      unfold splitOnce at h
      split at h
      · rename_i hx; cases h; simp [hx]
      · rename_i hx
        rw [Option.map_eq_some_iff] at h
        obtain ⟨⟨a', b'⟩, h1, h2⟩ := h
        cases h2
        obtain ⟨e, hn⟩ := ih h1
        refine ⟨by rw [e]; rfl, ?_⟩
        simp only [List.mem_cons, not_or]
        exact ⟨fun e => hx e.symm, hn⟩
  · rintro ⟨rfl, h⟩; exact splitOnce_append b h

theorem rsplitOnce_eq_none {c : Char} {s : Str} : rsplitOnce c s = none ↔ c ∉ s := by
  induction s with
  | nil => simp [rsplitOnce]
  | cons x xs ih =>
    unfold rsplitOnce
    split
    · rename_i h
      constructor
      · intro e; cases e
      · intro hn
        simp only [List.mem_cons, not_or] at hn
        rw [ih.2 hn.2] at h; cases h
    · rename_i h
      have hn := ih.1 h
      split
      · rename_i hx; simp [hx]
      · rename_i hx
        simp only [List.mem_cons, not_or, true_iff]
        exact ⟨fun e => hx e.symm, hn⟩

theorem rsplitOnce_append {c : Char} (a : Str) {b : Str} (h : c ∉ b) :
    rsplitOnce c (a ++ c :: b) = some (a, b) := by
  induction a with
  | nil => simp [rsplitOnce, rsplitOnce_eq_none.2 h]
  | cons x xs ih => simp [rsplitOnce, ih]

theorem rsplitOnce_eq_some {c : Char} {s a b : Str} :
    rsplitOnce c s = some (a, b) ↔ s = a ++ c :: b ∧ c ∉ b := by
  constructor
  · intro h
    induction s generalizing a with
    | nil => simp [rsplitOnce] at h
    | cons x xs ih =>
      unfold rsplitOnce at h
      split at h
      · rename_i a' b' h1
        cases h
        obtain ⟨e, hn⟩ := ih h1
        exact ⟨by rw [e]; rfl, hn⟩
      · rename_i h1
        split at h
        · rename_i hx; cases h; exact ⟨by simp [hx], rsplitOnce_eq_none.1 h1⟩
        · cases h
  · rintro ⟨rfl, h⟩; exact rsplitOnce_append a h

theorem endsWith_iff {s suffix : Str} : endsWith s suffix = true ↔ suffix <:+ s := by
  unfold endsWith
  rw [List.isPrefixOf_iff_prefix, List.reverse_prefix]

end Rops
