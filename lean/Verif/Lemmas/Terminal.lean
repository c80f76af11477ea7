import Verif.Lemmas.TomlWritten
import Verif.Spec.Terminal
/-!
# Which characters are written
-/

namespace Rops

open Spec

/-! ## JSON -/

/-- All characters of a text are tame. -/
abbrev TameText (s : Str) : Prop := ∀ c ∈ s, Tame c

theorem TameText.append {a b : Str} (ha : TameText a) (hb : TameText b) : TameText (a ++ b) := fun c hc => (List.mem_append.1 hc).elim (ha c) (hb c)

theorem TameText.cons {c : Char} {s : Str} (hc : Tame c) (hs : TameText s) : TameText (c :: s) := fun d hd =>
  (List.mem_cons.1 hd).elim (fun e => e ▸ hc) (hs d)

theorem TameText.nil : TameText [] := fun _ h => nomatch h

instance (c : Char) : Decidable (Tame c) := inferInstanceAs (Decidable (_ ∨ _))

instance (c : Char) : Decidable (Quiet c) := inferInstanceAs (Decidable (_ ∨ _))

theorem hex_tame : ∀ n < 16, Tame (jsonHex n) := by decide

theorem escape_tame (c : Char) : TameText (jsonEscape c) := by
  unfold jsonEscape
  repeat' split
  any_goals decide
  · rename_i h
    exact .cons (by decide) (.cons (by decide) (.cons (by decide) (.cons (by decide) (.cons (hex_tame _ (by omega)) (.cons (hex_tame _ (by omega)) .nil)))))
  · rename_i h
    exact .cons (.inr (by omega)) .nil

theorem quote_tame (s : Str) : TameText (jsonQuote s) := by
  refine .cons (by decide) (.append (fun c hc => ?_) (by decide))
  obtain ⟨d, _, hd⟩ := List.mem_flatMap.1 hc
  exact escape_tame d c hd

theorem digit_tame : ∀ d < 10, Tame (Char.ofNat (48 + d)) := by decide

theorem decimal_tame {s : Str} {n : Nat} (h : Decimal s n) : TameText s := by
  induction h with
  | digit d hd => exact .cons (digit_tame d hd) .nil
  | more d _ hd ih => exact ih.append (.cons (digit_tame d hd) .nil)

theorem decimalText_tame {x : Str} {n : Nat} {e : Int} (h : DecimalText x n e) : TameText x := by
  obtain ⟨ds, fs, ex, i, ⟨_, h1⟩, h2, _, h3, rfl⟩ := h
  have h2 := decimal_tame h2
  have hf : TameText fs := fun c hc => h2 c (List.mem_append_right _ hc)
  refine .append (.append (decimal_tame h1) ?_) ?_
  · split
    · exact .nil
    · exact .cons (by decide) hf
  · rcases h3 with ⟨rfl, _⟩ | ⟨c, es, a, hc, he, h⟩
    · exact .nil
    · have hc : Tame c := by rcases hc with rfl | rfl <;> decide
      have he := decimal_tame he
      rcases h with ⟨rfl, _⟩ | ⟨rfl, _⟩ | ⟨rfl, _⟩
      · exact .cons hc he
      · exact .cons hc (.cons (by decide) he)
      · exact .cons hc (.cons (by decide) he)

theorem ryu_tame (neg : Bool) (v : Nat) : TameText (F64.ryu neg v) := by
  unfold F64.ryu
  refine .append ?_ ?_
  · cases neg <;> decide
  · split
    · decide
    · obtain ⟨ds, fs, ex, i, h1, h2, h3, h4, _, h6, _⟩ := (stands_ryu (shortest v).1 (shortest v).2).parts
      exact decimalText_tame ⟨ds, fs, ex, i, digits_of h1 h2, decimal_of_digits (digits_of (h1.append h3) (by simp [h2])), rfl, floatExponent_iff.1 h4, h6⟩

theorem jsonScalar_tame (a : JsonScalar) : TameText (a.text serdeFloats) := by
  rcases a with (_ | _) | (n | n | s) | s
  · decide
  · decide
  · exact decimal_tame (toDigits_int _).1
  · show TameText (showInt n)
    unfold showInt
    simp only
    split
    · exact .cons (by decide) (decimal_tame (toDigits_int _).1)
    · exact decimal_tame (toDigits_int _).1
  · show TameText (match F64.parse s with | some (.finite n v) => F64.ryu n v | _ => c!"null")
    split
    · exact ryu_tame _ _
    · decide
  · exact quote_tame s

theorem line_tame (n : Nat) : TameText (jsonLine n) := .cons (by decide) fun c hc => by rw [(List.mem_replicate.1 hc).2]; decide

theorem pretty_tame {J : JsonFloats} (hJ : ∀ a : JsonScalar, TameText (a.text J)) :
    (∀ t : Json, ∀ n, TameText (Json.pretty J n t)) ∧ (∀ l : List Json, ∀ n b, TameText (Json.prettySeq J n b l)) ∧
    (∀ m : List (Str × Json), ∀ n b, TameText (Json.prettyMap J n b m)) := by
  have hb : ∀ b : Bool, TameText (if b then [] else [',']) := by intro b; cases b <;> decide
  apply Tree.induct
  · intro l ih n
    rw [Json.pretty]
    refine .cons (by decide) (.append (ih _ _) (.append ?_ (by decide)))
    split
    · exact .nil
    · exact line_tame n
  · intro l ih n
    rw [Json.pretty]
    refine .cons (by decide) (.append (ih _ _) (.append ?_ (by decide)))
    split
    · exact .nil
    · exact line_tame n
  · intro n
    rw [Json.pretty]
    decide
  · intro a n
    rw [Json.pretty]
    exact hJ a
  · intro n b
    rw [Json.prettySeq]
    exact .nil
  · intro t r iht ihr n b
    rw [Json.prettySeq]
    exact .append (hb b) (.append (line_tame n) (.append (iht n) (ihr n _)))
  · intro n b
    rw [Json.prettyMap]
    exact .nil
  · intro k t r iht ihr n b
    rw [Json.prettyMap]
    exact .append (hb b) (.append (line_tame n) (.append (quote_tame k) (.cons (by decide) (.cons (by decide)
      (.append (iht n) (ihr n _))))))

/-! ## TOML -/

/-- All characters of a text are quiet. -/
abbrev QuietText (s : Str) : Prop := ∀ c ∈ s, Quiet c

theorem QuietText.append {a b : Str} (ha : QuietText a) (hb : QuietText b) : QuietText (a ++ b) := fun c hc => (List.mem_append.1 hc).elim (ha c) (hb c)

theorem QuietText.cons {c : Char} {s : Str} (hc : Quiet c) (hs : QuietText s) : QuietText (c :: s) := fun d hd =>
  (List.mem_cons.1 hd).elim (fun e => e ▸ hc) (hs d)

theorem QuietText.nil : QuietText [] := fun _ h => nomatch h

theorem tomlHex_quiet : ∀ n < 16, Quiet (tomlHex n) := by decide

theorem tomlEscape_quiet (b : Bool) (c : Char) : QuietText (tomlEscape b c) := by
  unfold tomlEscape
  repeat' split
  any_goals decide
  · rename_i h
    exact .cons (by decide) (.cons (by decide) (.cons (by decide) (.cons (by decide) (.cons (tomlHex_quiet _ (by omega)) (.cons (tomlHex_quiet _ (by omega)) .nil)))))
  · rename_i h
    exact .cons (.inr (.inr (by omega))) .nil

theorem escapes_quiet (b : Bool) (s : Str) : QuietText (s.flatMap (tomlEscape b)) := by
  intro c hc
  obtain ⟨d, _, hd⟩ := List.mem_flatMap.1 hc
  exact tomlEscape_quiet b d c hd

theorem tomlBasic_quiet (s : Str) : QuietText (tomlBasic s) := .cons (by decide) (.append (escapes_quiet _ s) (by decide))

theorem literal_quiet {s : Str} (h : tomlLiteral s = true) : QuietText s := by
  intro c hc
  rcases (betterRaw_iff.2 h).2.1 c hc with h | h | h
  · exact .inr (.inl h)
  · exact .inl h
  · exact .inr (.inr h)

theorem tomlString_quiet (s : Str) : QuietText (tomlString s) := by
  unfold tomlString
  split
  · split
    · rename_i h
      exact .append (by decide) (.append (literal_quiet h) (by decide))
    · exact .append (by decide) (.append (escapes_quiet _ s) (by decide))
  · split
    · rename_i h
      split
      · exact .append (by decide) (.append (literal_quiet h) (by decide))
      · exact .cons (by decide) (.append (literal_quiet h) (by decide))
    · exact tomlBasic_quiet s

theorem token_quiet {c : Char} (h : tomlTokenChar c = true) : Quiet c := by
  refine .inr (.inr ?_)
  have hv : c.toNat = c.val.toNat := rfl
  simp only [tomlTokenChar, Char.isAlphanum, Char.isAlpha, Char.isUpper, Char.isLower, Char.isDigit, Bool.or_eq_true, beq_iff_eq, Bool.and_eq_true,
    decide_eq_true_eq, ge_iff_le, UInt32.le_iff_toNat_le] at h
  rcases h with ((((((((h | h) | h) | h) | h) | h) | h) | h)) <;> first | (subst h; decide) | (rw [hv]; simp at h; omega)

theorem bare_token {c : Char} (h : tomlBare c = true) : tomlTokenChar c = true := by
  unfold tomlBare at h
  unfold tomlTokenChar
  rw [h]
  rfl

theorem tomlKey_quiet (k : Str) : QuietText (tomlKey k) := by
  unfold tomlKey
  split
  · rename_i h
    rw [Bool.and_eq_true, List.all_eq_true] at h
    exact fun c hc => token_quiet (bare_token (h.2 c hc))
  · exact tomlBasic_quiet k

theorem tomlPath_quiet : ∀ p : List Str, QuietText (tomlPath p)
  | [] => .nil
  | [k] => tomlKey_quiet k
  | k :: k' :: r => .append (tomlKey_quiet k) (.cons (by decide) (tomlPath_quiet (k' :: r)))

/-- The value of a statement is quiet. -/
def QuietStmt : TomlStmt → Prop
  | .entry _ _ v => QuietText v.inline
  | _ => True

theorem under_quiet {k : Str} {s : TomlStmt} (h : QuietStmt s) : QuietStmt (s.under k) := by cases s <;> exact h

theorem inline_quiet {S : TomlScalars} :
    (∀ t : Toml, TomlSound S t → QuietText t.inline ∧ (∀ m, t = .table m → ∀ s ∈ Toml.entryStmts m ++ Toml.sectionStmts m, QuietStmt s) ∧
      ∀ k, ∀ s ∈ Toml.sectionStmts [(k, t)], QuietStmt s) ∧
    (∀ l : List Toml, TomlSoundSeq S l → QuietText (Toml.inlineSeq l) ∧ (∀ t, l = [t] → QuietText t.inline) ∧ ∀ k, ∀ s ∈ Toml.elementStmts k l, QuietStmt s) ∧
    (∀ m : List (Str × Toml), TomlSoundMap S m → (∀ b, QuietText (Toml.inlineMap b m)) ∧ ∀ s ∈ Toml.entryStmts m ++ Toml.sectionStmts m, QuietStmt s) := by
  have hb : ∀ b : Bool, QuietText (if b then [] else [',']) := by intro b; cases b <;> decide
  apply Toml.induct
  · intro s _; exact ⟨by rw [Toml.inline]; exact tomlString_quiet s, nofun, fun k s hs => by simp [Toml.sectionStmts] at hs⟩
  · intro n _; exact ⟨by rw [Toml.inline]; exact fun c hc => token_quiet (showInt_chars n c hc), nofun, fun k s hs => by simp [Toml.sectionStmts] at hs⟩
  · intro s h; rw [TomlSound] at h; exact ⟨by rw [Toml.inline]; exact fun c hc => token_quiet (h.chars c hc), nofun, fun k s hs => by simp [Toml.sectionStmts] at hs⟩
  · intro b _; exact ⟨by cases b <;> rw [Toml.inline] <;> decide, nofun, fun k s hs => by simp [Toml.sectionStmts] at hs⟩
  · intro s h; rw [TomlSound] at h; exact ⟨by rw [Toml.inline]; exact fun c hc => token_quiet (h.chars c hc), nofun, fun k s hs => by simp [Toml.sectionStmts] at hs⟩
  · intro l ih h
    rw [TomlSound] at h
    obtain ⟨h1, h2, h3⟩ := ih h
    refine ⟨?_, nofun, fun k s hs => ?_⟩
    rotate_left
    · rw [Toml.sectionStmts, Toml.sectionStmts, List.append_nil] at hs
      split at hs
      · exact h3 k s hs
      · cases hs
    match l with
    | [] => rw [Toml.inline]; decide
    | [t] => rw [Toml.inline]; exact .cons (by decide) (.append (h2 t rfl) (by decide))
    | t :: u :: r => rw [Toml.inline]; exact .cons (by decide) (.append h1 (by decide))
  · intro m ih h
    rw [TomlSound] at h
    obtain ⟨h1, h2⟩ := ih h.2
    refine ⟨?_, fun m' e => by cases e; exact h2, fun k s hs => ?_⟩
    rotate_left
    · rw [Toml.sectionStmts, Toml.sectionStmts, List.append_nil, List.mem_append] at hs
      rcases hs with hs | hs
      · split at hs
        · rw [List.mem_singleton] at hs
          subst hs
          trivial
        · cases hs
      · obtain ⟨s', hs', rfl⟩ := List.mem_map.1 hs
        exact under_quiet (h2 s' hs')
    match m with
    | [] => rw [Toml.inline]; decide
    | e :: r => rw [Toml.inline]; exact .cons (by decide) (.append (h1 true) (by decide))
  · intro _
    exact ⟨by rw [Toml.inlineSeq]; exact .nil, nofun, fun k s hs => by simp [Toml.elementStmts] at hs⟩
  · intro t r iht ihr h
    rw [TomlSoundSeq] at h
    obtain ⟨h1, h2, _⟩ := iht h.1
    obtain ⟨h3, _, h4⟩ := ihr h.2
    refine ⟨?_, fun u e => by cases e; exact h1, fun k s hs => ?_⟩
    · rw [Toml.inlineSeq]
      exact .append (by decide) (.append h1 (.cons (by decide) h3))
    · cases t with
      | table m =>
        rw [Toml.elementStmts, List.mem_append, List.mem_cons] at hs
        rcases hs with (rfl | hs) | hs
        · trivial
        · obtain ⟨s', hs', rfl⟩ := List.mem_map.1 hs
          exact under_quiet (h2 m rfl s' hs')
        · exact h4 k s hs
      | _ => rw [Toml.elementStmts] at hs <;> first | exact h4 k s hs | nofun
  · intro _
    exact ⟨fun b => by rw [Toml.inlineMap]; exact .nil, fun s hs => by simp [Toml.entryStmts, Toml.sectionStmts] at hs⟩
  · intro k t r iht ihr h
    rw [TomlSoundMap] at h
    obtain ⟨h1, _, h2⟩ := iht h.1
    obtain ⟨h3, h4⟩ := ihr h.2
    refine ⟨fun b => ?_, fun s hs => ?_⟩
    · rw [Toml.inlineMap]
      exact .append (hb b) (.cons (by decide) (.append (tomlKey_quiet k) (.append (by decide) (.append h1 (h3 _)))))
    · rcases List.mem_append.1 hs with hs | hs
      · rw [Toml.entryStmts] at hs
        split at hs
        · exact h4 s (List.mem_append_left _ hs)
        · rcases List.mem_cons.1 hs with rfl | hs
          · exact h1
          · exact h4 s (List.mem_append_left _ hs)
      · have e : Toml.sectionStmts ((k, t) :: r) = Toml.sectionStmts [(k, t)] ++ Toml.sectionStmts r := sectionStmts_append [(k, t)] r
        rw [e] at hs
        rcases List.mem_append.1 hs with hs | hs
        · exact h2 k s hs
        · exact h4 s (List.mem_append_right _ hs)

theorem lines_quiet {l : List TomlStmt} (h : ∀ s ∈ l, QuietStmt s) (b : Bool) : QuietText (tomlLines b l) := by
  have hb : QuietText (if b then [] else ['\n']) := by cases b <;> decide
  induction l generalizing b with
  | nil => rw [tomlLines]; exact .nil
  | cons s r ih =>
    have hr := ih (fun s hs => h s (List.mem_cons_of_mem _ hs)) false (by decide)
    have hs := h s (List.mem_cons_self ..)
    cases s with
    | entry p k v => rw [tomlLines]; exact .append (tomlPath_quiet _) (.append (by decide) (.append hs (.cons (by decide) hr)))
    | table p => rw [tomlLines]; exact .append hb (.cons (by decide) (.append (tomlPath_quiet _) (.append (by decide) hr)))
    | element p => rw [tomlLines]; exact .append hb (.append (by decide) (.append (tomlPath_quiet _) (.append (by decide) hr)))

end Rops
