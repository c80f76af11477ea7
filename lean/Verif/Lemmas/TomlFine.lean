import Verif.Lemmas.TomlSyntax
import Verif.Lemmas.TomlSections
/-!
# The characters of TOML documents
-/

namespace Rops
open Spec

/-- A character that may be in a document. -/
def TomlFine (c : Char) : Prop := TomlNonControl c ∨ c = '\n' ∨ c = '\r'

/-- A text of such characters. -/
def FineText (x : Str) : Prop := ∀ c ∈ x, TomlFine c

theorem fine_nil : FineText [] := fun _ h => nomatch h

theorem fine_append {x y : Str} (hx : FineText x) (hy : FineText y) : FineText (x ++ y) := by
  intro c h
  rcases List.mem_append.1 h with h | h
  · exact hx c h
  · exact hy c h

theorem fine_cons {c : Char} {x : Str} (hc : TomlFine c) (hx : FineText x) : FineText (c :: x) := by
  intro a h
  rcases List.mem_cons.1 h with rfl | h
  · exact hc
  · exact hx a h

instance (c : Char) : Decidable (TomlNonControl c) := inferInstanceAs (Decidable (_ ∨ _ ∧ _))

instance (c : Char) : Decidable (TomlFine c) := inferInstanceAs (Decidable (_ ∨ _ ∨ _))

theorem fine_range {c : Char} (h : 32 ≤ c.toNat) (h' : c.toNat < 127) : TomlFine c := .inl (.inr ⟨h, by omega⟩)

theorem fine_le {c a b : Char} (h1 : a ≤ c) (h2 : c ≤ b) (ha : 32 ≤ a.toNat) (hb : b.toNat < 127) : TomlFine c := by
  have h1 : a.toNat ≤ c.toNat := h1
  have h2 : c.toNat ≤ b.toNat := h2
  exact fine_range (by omega) (by omega)

theorem fine_ws {w : Str} (h : TomlWs w) : FineText w := by
  intro c hc
  rcases h c hc with rfl | rfl <;> decide

theorem fine_nl {w : Str} (h : TomlNl w) : FineText w := by
  rcases h with rfl | rfl <;> intro c hc <;> simp at hc
  · subst hc; decide
  · rcases hc with rfl | rfl <;> decide

theorem fine_remark {x : Str} (h : TomlRemark x) : FineText x := by
  obtain ⟨t, rfl, h⟩ := h
  exact fine_cons (by decide) (fun c hc => .inl (h c hc))

theorem fine_blank {x : Str} (h : TomlBlank x) : FineText x := by
  induction h with
  | nil => exact fine_nil
  | ws h _ ih => exact fine_cons (by rcases h with rfl | rfl <;> decide) ih
  | nl h _ ih => exact fine_append (fine_nl h) ih

theorem fine_between {x : Str} (h : TomlBetween x) : FineText x := by
  induction h with
  | nil => exact fine_nil
  | ws h _ ih => exact fine_cons (by rcases h with rfl | rfl <;> decide) ih
  | nl h _ ih => exact fine_append (fine_nl h) ih
  | remark h h' _ ih => exact fine_append (fine_remark h) (fine_append (fine_nl h') ih)

theorem fine_tail {x : Str} (h : TomlTail x) : FineText x := by
  obtain ⟨w, t, rfl, hw, ht⟩ := h
  refine fine_append (fine_ws hw) ?_
  rcases ht with rfl | ht
  · exact fine_nil
  · exact fine_remark ht

theorem fine_hex {c : Char} {d : Nat} (h : HexDigit c d) : TomlFine c := by
  have := digitIn_char (base := d + 1) ⟨d, h, by omega⟩
  exact fine_range (by omega) (by omega)

theorem fine_number {base n : Nat} {x : Str} (h : NumberIn base x n) : FineText x := by
  induction h with
  | nil => exact fine_nil
  | snoc _ h _ ih => exact fine_append ih (fine_cons (fine_hex h) fine_nil)

theorem fine_escaped {c : Char} {x : Str} (h : TomlEscaped c x) : FineText x := by
  cases h with
  | letter h =>
    refine fine_cons (by decide) (fine_cons ?_ fine_nil)
    simp only [tomlLetters, List.mem_cons, Prod.mk.injEq, List.not_mem_nil, or_false] at h
    rcases h with ⟨rfl, _⟩ | ⟨rfl, _⟩ | ⟨rfl, _⟩ | ⟨rfl, _⟩ | ⟨rfl, _⟩ | ⟨rfl, _⟩ | ⟨rfl, _⟩ <;> decide
  | four h => exact fine_cons (by decide) (fine_cons (by decide) (fine_number h))
  | eight h => exact fine_cons (by decide) (fine_cons (by decide) (fine_number h))

theorem fine_basicBody {s x : Str} (h : TomlBasicBody s x) : FineText x := by
  induction h with
  | nil => exact fine_nil
  | plain h _ _ _ ih => exact fine_cons (.inl h) ih
  | escaped h _ ih => exact fine_append (fine_escaped h) ih

theorem fine_linesBody {n : Nat} {s x : Str} (h : TomlLinesBody n s x) : FineText x := by
  induction h with
  | nil => exact fine_nil
  | quote _ _ ih => exact fine_cons (by decide) ih
  | plain h _ _ _ ih => exact fine_cons (.inl h) ih
  | newline h _ ih => exact fine_append (fine_nl h) ih
  | escaped h _ ih => exact fine_append (fine_escaped h) ih
  | fold h1 h2 h3 _ _ ih => exact fine_cons (by decide) (fine_append (fine_ws h1) (fine_append (fine_nl h2) (fine_append (fine_blank h3) ih)))

theorem fine_rawBody {n : Nat} {s x : Str} (h : TomlRawBody n s x) : FineText x := by
  induction h with
  | nil => exact fine_nil
  | quote _ _ ih => exact fine_cons (by decide) ih
  | plain h _ _ ih => exact fine_cons (.inl h) ih
  | newline h _ ih => exact fine_append (fine_nl h) ih

theorem fine_opening {y x : Str} (h : AfterOpening y x) (hx : FineText x) : FineText y := by
  rcases h with ⟨rfl, _⟩ | ⟨e, he, rfl⟩
  · exact hx
  · exact fine_append (fine_nl he) hx

theorem fine_basic {s x : Str} (h : TomlBasicText s x) : FineText x := by
  obtain ⟨y, rfl, h⟩ := h
  exact fine_cons (by decide) (fine_append (fine_basicBody h) (fine_cons (by decide) fine_nil))

theorem fine_literal {s x : Str} (h : TomlLiteralText s x) : FineText x := by
  obtain ⟨rfl, h⟩ := h
  exact fine_cons (by decide) (fine_append (fun c hc => .inl (h c hc).1) (fine_cons (by decide) fine_nil))

theorem fine_quoted {s x : Str} (h : TomlQuoted s x) : FineText x := by
  have three : ∀ {q : Char}, TomlFine q → ∀ {y : Str}, FineText y → FineText (q :: q :: q :: (y ++ [q, q, q])) := fun hq _ hy =>
    fine_cons hq (fine_cons hq (fine_cons hq (fine_append hy (fine_cons hq (fine_cons hq (fine_cons hq fine_nil))))))
  cases h with
  | basic h => exact fine_basic h
  | lines h h' => exact three (by decide) (fine_opening h' (fine_linesBody h))
  | literal h => exact fine_literal h
  | raw h h' => exact three (by decide) (fine_opening h' (fine_rawBody h))

theorem fine_part {s x : Str} (h : TomlPart s x) : FineText x := by
  cases h with
  | bare _ h =>
    intro c hc
    rcases h c hc with h | h | h | rfl | rfl
    · exact fine_le h.1 h.2 (by decide) (by decide)
    · exact fine_le h.1 h.2 (by decide) (by decide)
    · exact fine_le h.1 h.2 (by decide) (by decide)
    · decide
    · decide
  | basic h => exact fine_basic h
  | literal h => exact fine_literal h

theorem fine_key {p : List Str} {x : Str} (h : TomlKeyText p x) : FineText x := by
  induction h with
  | one h1 h2 h3 => exact fine_append (fine_ws h1) (fine_append (fine_part h2) (fine_ws h3))
  | cons h1 h2 h3 _ ih =>
    exact fine_append (fine_ws h1) (fine_append (fine_part h2) (fine_append (fine_ws h3) (fine_cons (by decide) ih)))

theorem fine_word {c : Char} (h : TomlWordChar c) : TomlFine c := by
  rcases h with h | h | h | h
  · exact fine_le h.1 h.2 (by decide) (by decide)
  · exact fine_le h.1 h.2 (by decide) (by decide)
  · exact fine_le h.1 h.2 (by decide) (by decide)
  · simp only [List.mem_cons, List.not_mem_nil, or_false] at h
    rcases h with rfl | rfl | rfl | rfl | rfl <;> decide

theorem fine_shape {x : Str} (h : TomlDateShape x) : FineText x := by
  rcases h with ⟨_, h⟩ | ⟨a, y, z, rfl, _, h, _, _, h', _⟩
  · exact fun c hc => fine_word (h c hc)
  · exact fine_append (fun c hc => fine_word (h c hc)) (fine_cons (by decide) (fun c hc => fine_word (h' c hc)))

theorem fine_syntax {S : TomlScalars} {d : Nat} {N : TomlNode} {x : Str} (h : TomlSyntax S d N x) : FineText x := by
  have cons : ∀ {c : Char} {x : Str}, TomlFine c → FineText x → FineText (c :: x) := fine_cons
  induction h with
  | text h => exact fine_quoted h
  | yes => unfold FineText; decide
  | no => unfold FineText; decide
  | int h => exact fine_shape (intText_shape h)
  | float h => exact fine_shape (floatText_shape h)
  | date h => exact fine_shape h.shape
  | array _ _ ih => exact cons (by decide) (fine_append ih (cons (by decide) fine_nil))
  | empty _ h => exact cons (by decide) (fine_append (fine_ws h) (cons (by decide) fine_nil))
  | table _ _ _ ih => exact cons (by decide) (fine_append ih (cons (by decide) fine_nil))
  | none h => exact fine_between h
  | last h _ h' ih => exact fine_append (fine_between h) (fine_append ih (fine_between h'))
  | more h _ h' _ ih ih' => exact fine_append (fine_between h) (fine_append ih (fine_append (fine_between h') (cons (by decide) ih')))
  | pair h1 _ h2 _ h3 ih => exact fine_append (fine_key h1) (cons (by decide) (fine_append (fine_ws h2) (fine_append ih (fine_ws h3))))
  | pairs h1 _ h2 _ h3 _ ih ih' =>
    exact fine_append (fine_key h1) (cons (by decide) (fine_append (fine_ws h2) (fine_append ih (fine_append (fine_ws h3) (cons (by decide) ih')))))

theorem fine_stmt {S : TomlScalars} {st : TomlStmt} {x : Str} (h : TomlStmtText S st x) : FineText x := by
  cases h with
  | entry h1 _ h2 h3 => exact fine_append (fine_key h1) (fine_cons (by decide) (fine_append (fine_ws h2) (fine_syntax h3)))
  | table h => exact fine_cons (by decide) (fine_append (fine_key h) (fine_cons (by decide) fine_nil))
  | element h =>
    exact fine_cons (by decide) (fine_cons (by decide) (fine_append (fine_key h) (fine_cons (by decide) (fine_cons (by decide) fine_nil))))

theorem fine_lines {S : TomlScalars} {l : List TomlStmt} {x : Str} (h : TomlLinesText S l x) : FineText x := by
  induction h with
  | last h => exact fine_tail h
  | blank h h' _ ih => exact fine_append (fine_tail h) (fine_append (fine_nl h') ih)
  | lastStmt h1 h2 h3 => exact fine_append (fine_ws h1) (fine_append (fine_stmt h2) (fine_tail h3))
  | stmt h1 h2 h3 h4 _ ih =>
    exact fine_append (fine_ws h1) (fine_append (fine_stmt h2) (fine_append (fine_tail h3) (fine_append (fine_nl h4) ih)))

theorem document_fine {S : TomlScalars} {l : List TomlStmt} {s : Str} (h : TomlDocumentText S l s) : ∀ c ∈ s, TomlFine c := by
  obtain ⟨x, hx, rfl | ⟨rfl, _⟩⟩ := h
  · exact fine_cons (by decide) (fine_lines hx)
  · exact fine_lines hx

theorem applyAll_isTable : ∀ (l : List TomlStmt) (header : List Str) {t t' : TomlItem}, TomlStmt.applyAll header t l = some t' → IsTable t → IsTable t'
  | [], _, _, _, h, ht => by rw [TomlStmt.applyAll] at h; cases h; exact ht
  | s :: l, header, t, t', h, ht => by
    rw [TomlStmt.applyAll] at h
    split at h
    · rename_i t1 h1
      exact applyAll_isTable l _ h (apply_keeps header s t t1 ht h1)
    · cases h

end Rops
