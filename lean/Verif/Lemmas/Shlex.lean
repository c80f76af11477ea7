import Verif.Model.Shlex
import Verif.Spec.Shlex
/-!
# Lemmas about the words of $EDITOR
-/

namespace Rops

open Spec

theorem shellBlank_iff {c : Char} : shellBlank c = true ↔ ShellSpace c := by
  simp [shellBlank, ShellSpace, or_assoc]

theorem run_plain (w : Option Str) {c : Char} (r : Str) (h1 : c ≠ '"') (h2 : c ≠ '\'') (h3 : c ≠ '\\') (h4 : ¬ ShellSpace c)
    (h5 : w = none → c ≠ '#') : shlexRun (.word w) (c :: r) = shlexRun (.word (some (w.getD [] ++ [c]))) r := by
  have hb : ¬ shellBlank c = true := fun h => h4 (shellBlank_iff.1 h)
  have h6 : ¬ (c = '#' ∧ w = none) := fun h => h5 h.2 h.1
  cases r <;> simp [shlexRun, h1, h2, h3, hb, h6]

theorem run_blank (w : Option Str) {c : Char} (r : Str) (h : ShellSpace c) :
    shlexRun (.word w) (c :: r) = (shlexRun (.word none) r).map (w.toList ++ ·) := by
  rcases h with h | h | h <;> subst h <;> cases r <;> simp [shlexRun, shellBlank]

theorem run_open_single (w : Option Str) (r : Str) : shlexRun (.word w) ('\'' :: r) = shlexRun (.single (w.getD [])) r := by
  cases r <;> simp [shlexRun]

theorem run_open_double (w : Option Str) (r : Str) : shlexRun (.word w) ('"' :: r) = shlexRun (.double (w.getD [])) r := by
  cases r <;> simp [shlexRun]

theorem run_hash (r : Str) : shlexRun (.word none) ('#' :: r) = shlexRun .comment r := by
  cases r <;> simp [shlexRun, shellBlank]

theorem run_escape (w : Option Str) {c : Char} (r : Str) (h : c ≠ '\n') :
    shlexRun (.word w) ('\\' :: c :: r) = shlexRun (.word (some (w.getD [] ++ [c]))) r := by
  simp [shlexRun, h]

theorem run_line (w : Option Str) (r : Str) :
    shlexRun (.word w) ('\\' :: '\n' :: r) = shlexRun (.word (some (w.getD []))) r := by
  simp [shlexRun]

theorem run_single_end (w r : Str) : shlexRun (.single w) ('\'' :: r) = shlexRun (.word (some w)) r := by
  simp [shlexRun]

theorem run_single_next (w : Str) {c : Char} (r : Str) (h : c ≠ '\'') : shlexRun (.single w) (c :: r) = shlexRun (.single (w ++ [c])) r := by
  simp [shlexRun, h]

theorem run_double_end (w r : Str) : shlexRun (.double w) ('"' :: r) = shlexRun (.word (some w)) r := by
  cases r <;> simp [shlexRun]

theorem run_double_next (w : Str) {c : Char} (r : Str) (h : c ≠ '"') (h' : c ≠ '\\') :
    shlexRun (.double w) (c :: r) = shlexRun (.double (w ++ [c])) r := by
  cases r <;> simp [shlexRun, h, h']

theorem shellEscapes_iff {c : Char} : c ∈ shellEscapes ↔ (c = '$' ∨ c = '`' ∨ c = '"' ∨ c = '\\') := by
  simp [shellEscapes]

theorem run_comment_end (r : Str) : shlexRun .comment ('\n' :: r) = shlexRun (.word none) r := by
  simp [shlexRun]

theorem run_comment_next {c : Char} (r : Str) (h : c ≠ '\n') : shlexRun .comment (c :: r) = shlexRun .comment r := by
  simp [shlexRun, h]

/-! ## Texts of words are split -/

theorem run_single (w r : Str) : ∀ (x : Str), '\'' ∉ x → shlexRun (.single w) (x ++ '\'' :: r) = shlexRun (.word (some (w ++ x))) r
  | [], _ => by simp [run_single_end]
  | c :: x, h => by
    rw [List.cons_append, run_single_next w _ (fun e => h (by simp [e])), run_single (w ++ [c]) r x (fun e => h (by simp [e]))]
    simp

theorem run_double {x t : Str} (h : DoubleQuoted x t) (r : Str) : ∀ (w : Str),
    shlexRun (.double w) (t ++ '"' :: r) = shlexRun (.word (some (w ++ x))) r := by
  induction h with
  | nil => intro w; simp [run_double_end]
  | plain h1 h2 _ ih => intro w; rw [List.cons_append, run_double_next w _ h1 h2, ih]; simp
  | @escaped c x t h1 _ ih =>
    intro w
    have : c ∈ shellEscapes := shellEscapes_iff.2 h1
    simp only [List.cons_append, shlexRun, this, if_true]
    rw [ih]; simp
  | @line x t _ ih =>
    intro w
    have : ¬ '\n' ∈ shellEscapes := by decide
    simp only [List.cons_append, shlexRun, this, if_false, if_true]
    rw [ih]
  | @kept c x t h1 h2 _ ih =>
    intro w
    have : ¬ c ∈ shellEscapes := fun h => h1 (shellEscapes_iff.1 h)
    simp only [List.cons_append, shlexRun, this, h2, if_false]
    rw [ih]; simp

theorem run_part {p q : Str} (h : ShellPart p q) (w : Option Str) (r : Str) (h5 : w = none → q.head? ≠ some '#') :
    shlexRun (.word w) (q ++ r) = shlexRun (.word (some (w.getD [] ++ p))) r := by
  cases h with
  | @plain c h1 h2 h3 h4 => exact run_plain w r h1 h2 h3 h4 (fun e hc => h5 e (by simp [hc]))
  | escaped h1 => exact run_escape w r h1
  | line => rw [List.append_nil]; exact run_line w r
  | single h1 => rw [List.cons_append, run_open_single, List.append_assoc]; exact run_single _ r p h1
  | double h1 => rw [List.cons_append, run_open_double, List.append_assoc]; exact run_double h1 r _

theorem part_ne_nil {p q : Str} (h : ShellPart p q) : q ≠ [] := by cases h <;> simp

theorem run_parts_some {x t : Str} (h : ShellParts x t) (r : Str) : ∀ (w : Str),
    shlexRun (.word (some w)) (t ++ r) = shlexRun (.word (some (w ++ x))) r := by
  induction h with
  | nil => intro w; simp
  | cons h1 _ ih =>
    intro w
    rw [List.append_assoc, run_part h1 _ _ (by simp), ih]
    simp

theorem run_parts {x t : Str} (h : ShellParts x t) (r : Str) (ht : t ≠ []) (hh : t.head? ≠ some '#') :
    shlexRun (.word none) (t ++ r) = shlexRun (.word (some x)) r := by
  cases h with
  | nil => exact absurd rfl ht
  | @cons p x q t h1 h2 =>
    have hq : q.head? ≠ some '#' := by
      intro e; apply hh
      cases q with
      | nil => cases e
      | cons c q => simpa using e
    rw [List.append_assoc, run_part h1 none _ (fun _ => hq), run_parts_some h2]
    simp

theorem run_comment {x : Str} (r : Str) : '\n' ∉ x → shlexRun .comment (x ++ '\n' :: r) = shlexRun (.word none) r := by
  induction x with
  | nil => intro _; exact run_comment_end r
  | cons c x ih => intro h; rw [List.cons_append, run_comment_next _ (fun e => h (by simp [e])), ih (fun e => h (by simp [e]))]

theorem run_last_comment {x : Str} : '\n' ∉ x → shlexRun .comment x = some [] := by
  induction x with
  | nil => intro _; rfl
  | cons c x ih => intro h; rw [run_comment_next _ (fun e => h (by simp [e])), ih (fun e => h (by simp [e]))]

theorem run_gap {g : Str} (h : ShellGap g) (r : Str) : shlexRun (.word none) (g ++ r) = shlexRun (.word none) r := by
  induction h with
  | nil => rfl
  | blank h1 _ ih => rw [List.cons_append, run_blank _ _ h1, ih]; simp
  | comment h1 _ ih =>
    rw [List.cons_append, run_hash, List.append_assoc, List.cons_append, run_comment _ h1, ih]

theorem split_of_text {ws : List Str} {s : Str} (h : ShellText ws s) : shlexSplit s = some ws := by
  rw [shlexSplit]
  induction h with
  | nil hg hc =>
    rw [run_gap hg]
    rcases hc with rfl | ⟨x, hx, rfl⟩
    · rfl
    · rw [run_hash, run_last_comment hx]
  | @cons g w t r ws hg hw ht hh hr _ ih =>
    rw [run_gap hg, run_parts hw r ht hh]
    rcases hr with rfl | ⟨c, x, hc, rfl⟩
    · rw [shlexRun] at ih
      cases Option.some.inj ih
      rfl
    · rw [run_blank none x hc] at ih
      rw [run_blank _ x hc]
      simp at ih
      rw [ih]
      rfl

/-! ## What is split is a text of words -/

theorem shellText_blank {ws : List Str} {c : Char} {s : Str} (hc : ShellSpace c) (h : ShellText ws s) : ShellText ws (c :: s) := by
  cases h with
  | nil hg hl => exact .nil (g := c :: _) (.blank hc hg) hl
  | cons hg hw ht hh hr hs => exact .cons (g := c :: _) (.blank hc hg) hw ht hh hr hs

theorem shellText_comment {ws : List Str} {x s : Str} (hx : '\n' ∉ x) (h : ShellText ws s) : ShellText ws ('#' :: (x ++ '\n' :: s)) := by
  cases h with
  | @nil g c hg hl =>
    have := ShellText.nil (.comment hx hg) hl
    simpa using this
  | @cons g w t r ws hg hw ht hh hr hs =>
    have := ShellText.cons (.comment hx hg) hw ht hh hr hs
    simpa using this

/-- The rest of a word and the words after it. -/
def WordRest (w : Str) (ws : List Str) (s : Str) : Prop :=
  ∃ x t r ws', ws = (w ++ x) :: ws' ∧ s = t ++ r ∧ ShellParts x t ∧ (r = [] ∨ ∃ c y, ShellSpace c ∧ r = c :: y) ∧ ShellText ws' r

theorem wordRest_part {p q w : Str} {ws : List Str} {r : Str} (h : ShellPart p q) (hr : WordRest (w ++ p) ws r) : WordRest w ws (q ++ r) := by
  obtain ⟨x, t, r', ws', e, e', h1, h2, h3⟩ := hr
  exact ⟨p ++ x, q ++ t, r', ws', by rw [e, List.append_assoc], by rw [e', List.append_assoc], .cons h h1, h2, h3⟩

theorem shellText_part {p q : Str} {ws : List Str} {r : Str} (h : ShellPart p q) (hq : q.head? ≠ some '#') (hr : WordRest p ws r) :
    ShellText ws (q ++ r) := by
  obtain ⟨x, t, r', ws', e, e', h1, h2, h3⟩ := hr
  subst e e'
  have hn := part_ne_nil h
  have : ShellText _ ([] ++ ((q ++ t) ++ r')) := .cons .nil (.cons h h1) (by simp [hn])
    (by cases q with
        | nil => exact absurd rfl hn
        | cons c q => simpa using hq) h2 h3
  simpa using this

/-- What the reader has found in each of its states. -/
def RunSays : ShellMode → List Str → Str → Prop
  | .word none, ws, s => ShellText ws s
  | .word (some w), ws, s => WordRest w ws s
  | .comment, ws, s => ('\n' ∉ s ∧ ws = []) ∨ ∃ x r, '\n' ∉ x ∧ s = x ++ '\n' :: r ∧ ShellText ws r
  | .single w, ws, s => ∃ x r, '\'' ∉ x ∧ s = x ++ '\'' :: r ∧ WordRest (w ++ x) ws r
  | .double w, ws, s => ∃ x t r, DoubleQuoted x t ∧ s = t ++ '"' :: r ∧ WordRest (w ++ x) ws r

theorem says_part {p q : Str} {w : Option Str} {ws : List Str} {r : Str} (h : ShellPart p q) (hq : w = none → q.head? ≠ some '#')
    (hr : WordRest (w.getD [] ++ p) ws r) : RunSays (.word w) ws (q ++ r) := by
  cases w with
  | none => exact shellText_part h (hq rfl) hr
  | some w => exact wordRest_part h hr

theorem run_says : ∀ (n : Nat) (m : ShellMode) (s : Str) (ws : List Str), s.length ≤ n → shlexRun m s = some ws → RunSays m ws s
  | _, .word none, [], ws, _, h => by
    cases Option.some.inj h
    exact .nil (g := []) .nil (.inl rfl)
  | _, .word (some w), [], ws, _, h => by
    cases Option.some.inj h
    exact ⟨[], [], [], [], by simp, rfl, .nil, .inl rfl, .nil (g := []) .nil (.inl rfl)⟩
  | _, .comment, [], ws, _, h => by
    cases Option.some.inj h
    exact .inl ⟨by simp, rfl⟩
  | _, .single _, [], ws, _, h => by simp [shlexRun] at h
  | _, .double _, [], ws, _, h => by simp [shlexRun] at h
  | 0, _, _ :: _, _, hn, _ => by simp at hn
  | n + 1, .comment, c :: r, ws, hn, h => by
    have hn' : r.length ≤ n := by simpa using hn
    by_cases hc : c = '\n'
    · subst hc
      rw [run_comment_end] at h
      exact .inr ⟨[], r, by simp, rfl, run_says n _ r ws hn' h⟩
    · rw [run_comment_next r hc] at h
      rcases run_says n _ r ws hn' h with ⟨h1, h2⟩ | ⟨x, r', h1, h2, h3⟩
      · exact .inl ⟨by simp [h1, Ne.symm hc], h2⟩
      · exact .inr ⟨c :: x, r', by simp [h1, Ne.symm hc], by rw [h2]; rfl, h3⟩
  | n + 1, .single w, c :: r, ws, hn, h => by
    have hn' : r.length ≤ n := by simpa using hn
    by_cases hc : c = '\''
    · subst hc
      rw [run_single_end] at h
      exact ⟨[], r, by simp, rfl, by rw [List.append_nil]; exact run_says n (.word (some w)) r ws hn' h⟩
    · rw [run_single_next w r hc] at h
      obtain ⟨x, r', h1, h2, h3⟩ := run_says n (.single _) r ws hn' h
      exact ⟨c :: x, r', by simp [h1, Ne.symm hc], by rw [h2]; rfl, by simpa using h3⟩
  | n + 1, .double w, c :: r, ws, hn, h => by
    have hn' : r.length ≤ n := by simpa using hn
    by_cases hc : c = '"'
    · subst hc
      rw [run_double_end] at h
      exact ⟨[], [], r, .nil, rfl, by rw [List.append_nil]; exact run_says n (.word (some w)) r ws hn' h⟩
    · by_cases hb : c = '\\'
      · subst hb
        cases r with
        | nil => simp [shlexRun] at h
        | cons d r =>
          have hn2 : r.length ≤ n := by simp at hn'; omega
          simp only [shlexRun] at h
          split at h
          · obtain ⟨x, t, r', h1, h2, h3⟩ := run_says n (.double _) r ws hn2 h
            exact ⟨d :: x, '\\' :: d :: t, r', .escaped (shellEscapes_iff.1 (by assumption)) h1, by rw [h2]; rfl, by simpa using h3⟩
          · split at h
            · rename_i e; subst e
              obtain ⟨x, t, r', h1, h2, h3⟩ := run_says n (.double _) r ws hn2 h
              exact ⟨x, '\\' :: '\n' :: t, r', .line h1, by rw [h2]; rfl, h3⟩
            · rename_i hd hd'
              obtain ⟨x, t, r', h1, h2, h3⟩ := run_says n (.double _) r ws hn2 h
              exact ⟨'\\' :: d :: x, '\\' :: d :: t, r', .kept (fun e => hd (shellEscapes_iff.2 e)) hd' h1, by rw [h2]; rfl, by simpa using h3⟩
      · rw [run_double_next w r hc hb] at h
        obtain ⟨x, t, r', h1, h2, h3⟩ := run_says n (.double _) r ws hn' h
        exact ⟨c :: x, c :: t, r', .plain hc hb h1, by rw [h2]; rfl, by simpa using h3⟩
  | n + 1, .word w, c :: r, ws, hn, h => by
    have hn' : r.length ≤ n := by simpa using hn
    by_cases hb : ShellSpace c
    · rw [run_blank w r hb] at h
      obtain ⟨ws', h1, h2⟩ := Option.map_eq_some_iff.1 h
      subst h2
      have := shellText_blank hb (run_says n (.word none) r ws' hn' h1)
      cases w with
      | none => exact this
      | some w => exact ⟨[], [], c :: r, ws', by simp, rfl, .nil, .inr ⟨c, r, hb, rfl⟩, this⟩
    · by_cases h1 : c = '"'
      · subst h1
        rw [run_open_double] at h
        obtain ⟨x, t, r', e1, e2, e3⟩ := run_says n (.double _) r ws hn' h
        subst e2
        have := says_part (.double e1) (by simp) e3
        simpa using this
      · by_cases h2 : c = '\''
        · subst h2
          rw [run_open_single] at h
          obtain ⟨x, r', e1, e2, e3⟩ := run_says n (.single _) r ws hn' h
          subst e2
          have := says_part (.single e1) (by simp) e3
          simpa using this
        · by_cases h3 : c = '\\'
          · subst h3
            cases r with
            | nil => simp [shlexRun] at h
            | cons d r =>
              have hn2 : r.length ≤ n := by simp at hn'; omega
              by_cases hd : d = '\n'
              · subst hd
                rw [run_line] at h
                exact says_part .line (by simp) (by rw [List.append_nil]; exact run_says n (.word (some _)) r ws hn2 h)
              · rw [run_escape w r hd] at h
                exact says_part (.escaped hd) (by simp) (run_says n (.word (some _)) r ws hn2 h)
          · by_cases h4 : c = '#' ∧ w = none
            · obtain ⟨e1, e2⟩ := h4
              subst e1 e2
              rw [run_hash] at h
              rcases run_says n .comment r ws hn' h with ⟨g1, g2⟩ | ⟨x, r', g1, g2, g3⟩
              · subst g2
                exact .nil (g := []) .nil (.inr ⟨r, g1, rfl⟩)
              · subst g2
                exact shellText_comment g1 g3
            · have h5 : w = none → c ≠ '#' := fun e e' => h4 ⟨e', e⟩
              rw [run_plain w r h1 h2 h3 hb h5] at h
              exact says_part (.plain h1 h2 h3 hb) (fun e => by simpa using h5 e) (run_says n (.word (some _)) r ws hn' h)

theorem split_iff {s : Str} {ws : List Str} : shlexSplit s = some ws ↔ ShellText ws s :=
  ⟨fun h => run_says _ (.word none) s ws (Nat.le_refl _) h, split_of_text⟩

end Rops
