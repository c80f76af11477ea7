import Verif.Lemmas.TomlBuild
/-!
# The texts of TOML documents: lines
-/

namespace Rops
open Spec

/-- Statements that are read from their lines. -/
def StmtKept (S : TomlScalars) : TomlStmt → Prop
  | .entry p _ v => p = [] ∧ TomlSound S v ∧ tomlLevels v < S.limit
  | .table p => p ≠ [] ∧ p.length < S.limit
  | .element p => p ≠ [] ∧ p.length < S.limit

theorem tomlPath_head {p : List Str} (hp : p ≠ []) : ∃ c r, tomlPath p = c :: r ∧ (tomlBare c = true ∨ c = '"') := by
  match p, hp with
  | [k], _ => exact tomlKey_head k
  | k :: k' :: p, _ =>
    obtain ⟨c, r, h, hc⟩ := tomlKey_head k
    exact ⟨c, _, by rw [tomlPath, h]; rfl, hc⟩

theorem afterKey_bracket (r : Str) : AfterKey (']' :: r) where
  bare := begins_cons.2 (by decide)
  dot := by
    rw [List.dropWhile_cons_of_neg (by decide)]
    exact fun h => absurd (Option.some.inj h) (by decide)

theorem tomlHeader_text {S : TomlScalars} {close : Str} (hc : close = c!"]" ∨ close = c!"]]") {p : List Str} (hp : p ≠ [])
    (hl : p.length < S.limit) (r : Str) : tomlHeader S close (tomlPath p ++ (close ++ ('\n' :: r))) = some (p, r) := by
  unfold tomlHeader
  rcases hc with rfl | rfl
  · have := tomlReadKey_path (rest := c!"]" ++ ('\n' :: r)) (afterKey_bracket _) hp hl (w := []) (by simp)
    rw [List.nil_append] at this
    rw [this]
    rfl
  · have := tomlReadKey_path (rest := c!"]]" ++ ('\n' :: r)) (afterKey_bracket _) hp hl (w := []) (by simp)
    rw [List.nil_append] at this
    rw [this]
    rfl

theorem tomlEntry_text {S : TomlScalars} (h1 : 1 < S.limit) (k : Str) {v : Toml} (hv : TomlSound S v) (hl : tomlLevels v < S.limit)
    (r : Str) : tomlEntry S (tomlKey k ++ (c!" = " ++ (v.inline ++ '\n' :: r))) = some (.entry [] k v, r) := by
  have h := tomlReadKey_single h1 k (w := []) (by simp) (v.inline ++ '\n' :: r)
  rw [List.nil_append] at h
  obtain ⟨c, r', hc, hh⟩ := inline_head hv
  have g1 := (valueHead_space hh).1
  have hd : (' ' :: (v.inline ++ '\n' :: r)).dropWhile tomlSpace = v.inline ++ '\n' :: r := by
    rw [List.dropWhile_cons_of_pos (by decide), hc, List.cons_append, List.dropWhile_cons_of_neg (by rw [g1]; decide)]
  have hv' := tomlValue_inline v hv (n := (' ' :: (v.inline ++ '\n' :: r)).length + 1) (d := 0) (rest := '\n' :: r) hl
    (by simp only [List.length_cons, List.length_append]; omega) (afterValue_char r (by decide) (by decide) (by decide) (by decide))
  unfold tomlEntry
  rw [h]
  simp only
  rw [hd, hv']
  rfl

theorem tomlStmts_table {S : TomlScalars} {n : Nat} {p : List Str} (hp : p ≠ []) (hl : p.length < S.limit) (r : Str) :
    tomlStmts S (n + 1) ('[' :: (tomlPath p ++ (c!"]\n" ++ r))) = (tomlStmts S n r).map (.table p :: ·) := by
  have h := tomlHeader_text (close := c!"]") (.inl rfl) hp hl r
  obtain ⟨c, r', hc, hh⟩ := tomlPath_head hp
  have hne : c ≠ '[' := by rintro rfl; exact absurd hh (by decide)
  rw [tomlStmts, List.dropWhile_cons_of_neg (by decide)]
  change tomlHeader S c!"]" (tomlPath p ++ (c!"]\n" ++ r)) = _ at h
  split
  · rename_i h; cases h
  · rename_i h; exact absurd (List.cons.inj h).1 (by decide)
  · rename_i h
    rw [hc] at h
    exact absurd (List.cons.inj (List.cons.inj h).2).1 hne
  · rename_i h'
    obtain rfl := (List.cons.inj h').2
    rw [h]
  · rename_i h3 h'
    exact absurd (List.cons.inj h').1.symm h3

theorem tomlStmts_element {S : TomlScalars} {n : Nat} {p : List Str} (hp : p ≠ []) (hl : p.length < S.limit) (r : Str) :
    tomlStmts S (n + 1) ('[' :: '[' :: (tomlPath p ++ (c!"]]\n" ++ r))) = (tomlStmts S n r).map (.element p :: ·) := by
  have h := tomlHeader_text (close := c!"]]") (.inr rfl) hp hl r
  rw [tomlStmts, List.dropWhile_cons_of_neg (by decide)]
  change tomlHeader S c!"]]" (tomlPath p ++ (c!"]]\n" ++ r)) = _ at h
  simp only
  rw [h]

theorem tomlStmts_newline {S : TomlScalars} {n : Nat} (r : Str) : tomlStmts S (n + 1) ('\n' :: r) = tomlStmts S n r := by
  rw [tomlStmts, List.dropWhile_cons_of_neg (by decide)]
  rfl

theorem tomlStmts_entry {S : TomlScalars} (h1 : 1 < S.limit) {n : Nat} (k : Str) {v : Toml} (hv : TomlSound S v)
    (hl : tomlLevels v < S.limit) (r : Str) :
    tomlStmts S (n + 1) (tomlKey k ++ (c!" = " ++ (v.inline ++ '\n' :: r))) = (tomlStmts S n r).map (.entry [] k v :: ·) := by
  have h := tomlEntry_text h1 k hv hl r
  obtain ⟨c, r', hc, hh⟩ := tomlKey_head k
  have hs := keyHead_notSpace hh
  rw [hc, List.cons_append] at h ⊢
  have hn : tomlNewline (c :: (r' ++ (c!" = " ++ (v.inline ++ '\n' :: r)))) = none := by
    unfold tomlNewline
    split
    · rename_i h; rw [(List.cons.inj h).1] at hh; exact absurd hh (by decide)
    · rename_i h; rw [(List.cons.inj h).1] at hh; exact absurd hh (by decide)
    · rfl
  rw [tomlStmts, List.dropWhile_cons_of_neg (by rw [hs]; decide)]
  split
  · rename_i h; cases h
  · rename_i h; rw [(List.cons.inj h).1] at hh; exact absurd hh (by decide)
  · rename_i h; rw [(List.cons.inj h).1] at hh; exact absurd hh (by decide)
  · rename_i h; rw [(List.cons.inj h).1] at hh; exact absurd hh (by decide)
  · rename_i h'
    obtain ⟨rfl, rfl⟩ := List.cons.inj h'
    rw [hn]
    simp only
    rw [h]

/-- The lines for statements are read as these. -/
theorem tomlStmts_lines {S : TomlScalars} (h1 : 1 < S.limit) {l : List TomlStmt} (h : ∀ s ∈ l, StmtKept S s) {first : Bool} {n : Nat}
    (hn : (tomlLines first l).length < n) : tomlStmts S n (tomlLines first l) = some l := by
  induction l generalizing first n with
  | nil =>
    obtain ⟨n, rfl⟩ : ∃ m, n = m + 1 := ⟨n - 1, by omega⟩
    rfl
  | cons s l ih =>
    obtain ⟨n, rfl⟩ : ∃ m, n = m + 1 := ⟨n - 1, by omega⟩
    have hs := h s (by simp)
    have ih := fun first n => ih (fun s hs => h s (by simp [hs])) (first := first) (n := n)
    cases s with
    | entry p k v =>
      obtain ⟨rfl, h2, h3⟩ := hs
      rw [tomlLines] at hn ⊢
      rw [List.nil_append, tomlPath] at hn ⊢
      simp only [List.length_append, List.length_cons] at hn
      rw [tomlStmts_entry h1 k h2 h3, ih false n (by omega)]
      rfl
    | table p =>
      obtain ⟨h2, h3⟩ := hs
      rw [tomlLines] at hn ⊢
      cases first with
      | true =>
        simp only [if_true, List.nil_append, List.length_append, List.length_cons] at hn ⊢
        rw [tomlStmts_table h2 h3, ih false n (by omega)]
        rfl
      | false =>
        simp only [Bool.false_eq_true, if_false, List.length_append, List.length_cons] at hn ⊢
        obtain ⟨n, rfl⟩ : ∃ m, n = m + 1 := ⟨n - 1, by omega⟩
        rw [List.cons_append, tomlStmts_newline, List.nil_append, tomlStmts_table h2 h3, ih false n (by omega)]
        rfl
    | element p =>
      obtain ⟨h2, h3⟩ := hs
      rw [tomlLines] at hn ⊢
      cases first with
      | true =>
        simp only [if_true, List.nil_append, List.length_append, List.length_cons] at hn ⊢
        refine (tomlStmts_element h2 h3 _).trans ?_
        rw [ih false n (by omega)]
        rfl
      | false =>
        simp only [Bool.false_eq_true, if_false, List.length_append, List.length_cons] at hn ⊢
        obtain ⟨n, rfl⟩ : ∃ m, n = m + 1 := ⟨n - 1, by omega⟩
        rw [List.cons_append, tomlStmts_newline, List.nil_append]
        refine (tomlStmts_element h2 h3 _).trans ?_
        rw [ih false n (by omega)]
        rfl

end Rops
