import Verif.Lemmas.YamlGrammar
import Verif.Props.YamlLayout
/-!
# C92: which texts are YAML documents, and for which documents
-/

namespace Rops.Props

open Spec

/-- **C92.** A text is read as a document exactly if the grammar says it is a text of this document. -/
theorem C92_read {s : Str} {d : List (Yaml × Yaml)} : blockLayout.ops.parse s = some d ↔ YamlText s d := yamlText_iff

/-- **C92.** A text that is in the grammar for no document is refused. -/
theorem C92_refused {s : Str} : blockLayout.ops.parse s = none ↔ ∀ d, ¬ YamlText s d := by
  rw [Option.eq_none_iff_forall_ne_some]
  exact forall_congr' fun d => not_congr yamlText_iff

/-- **C92.** No text is a text of two documents. -/
theorem C92_unambiguous {s : Str} {d d' : List (Yaml × Yaml)} (h : YamlText s d) (h' : YamlText s d') : d = d' :=
  Option.some.inj ((yamlText_iff.2 h).symm.trans (yamlText_iff.2 h'))

/-- **C92.** The same is true of the lines of a node: columns alone decide which line belongs to what. -/
theorem C92_nodes {ls : List Str} {v w : YamlNode} (h : NodeText 0 ls v) (h' : NodeText 0 ls w) : v = w := by
  obtain ⟨_, h1, -⟩ := (nodeText_iff (Nat.le_refl _)).2 h
  obtain ⟨_, h2, -⟩ := (nodeText_iff (Nat.le_refl _)).2 h'
  rw [h1] at h2
  exact congrArg Prod.fst (Option.some.inj h2)

/-- **C92.** What is written for a document is a text of it, and of no other. -/
theorem C92_written {d : List (Yaml × Yaml)} (hs : YamlSound (.map d)) (hu : UntaggedMap d) (hn : yamlNesting (.map d) ≤ 128)
    {d' : List (Yaml × Yaml)} : YamlText (blockLayout.ops.render d) d' ↔ d' = d := by
  rw [← yamlText_iff, C90_documents hs hu, if_pos hn]
  exact ⟨fun h => (Option.some.inj h).symm, fun h => congrArg some h.symm⟩

/-- **C92.** Blank lines and comments before a document do not matter. -/
theorem C92_before {s t : Str} {d : List (Yaml × Yaml)} (ht : Hollow t) (hv : ∀ c ∈ t, YamlVisible c) :
    YamlText (t ++ '\n' :: s) d ↔ YamlText s d := exists_congr fun _ => and_congr_left fun _ => document_before ht hv

/-- **C92.** Line breaks of another system do not matter. -/
theorem C92_breaks {s t : Str} (h : BreaksText s t) (ht : '\r' ∉ t) {d : List (Yaml × Yaml)} : YamlText s d ↔ YamlText t d := by
  have e : ∀ l, DocumentText s l ↔ DocumentText t l := fun l => by
    constructor
    · rintro ⟨u, h1, h2⟩
      obtain rfl := (breaks_iff.2 h).symm.trans (breaks_iff.2 h1)
      exact ⟨t, breaks_iff.1 (yamlBreaks_id ht), h2⟩
    · rintro ⟨u, h1, h2⟩
      obtain rfl := (yamlBreaks_id ht).symm.trans (breaks_iff.2 h1)
      exact ⟨t, h, h2⟩
  exact exists_congr fun l => and_congr_left fun _ => e l

/-! ## Examples -/

-- a text of the grammar, line by line
example : YamlText c!"# box\nk: # a list\n- 'it''s'\n-  1\n" [(.str c!"k", .seq [.str c!"it's", .num (.posInt 1)])] := by
  have plain : ∀ {s : Str}, plainAllowed s = true → BareText s := bare_iff.1
  have g0 : ∀ c ∈ ([] : Str), c = ' ' := fun _ h => (nomatch h)
  have t0 : Tail [] := ⟨[], g0, .inl rfl⟩
  refine ⟨[(.plain c!"k", .seq [.quoted c!"it's", .plain c!"1"])], ⟨_, breaks_iff.1 rfl, ?_,
    .inl ⟨[c!"# box", c!"k: # a list", c!"- 'it''s'", c!"-  1"], _, ⟨by decide, rfl⟩, .inl rfl, ?_, ?_⟩⟩, ?_⟩
  · have : ∀ c ∈ c!"# box\nk: # a list\n- 'it''s'\n-  1\n", yamlPrintable c = true ∨ c = '\n' := by decide
    exact fun c hc => (this c hc).imp_left visible_iff.1
  · refine .map (m := 0) (before := [c!"# box"]) (own := [c!"k: # a list", c!"- 'it''s'", c!"-  1"]) ?_ (Nat.le_refl _) (.one ?_)
    · intro l hl
      rw [List.mem_singleton.1 hl]
      exact ⟨[], g0, .inr ⟨_, rfl⟩⟩
    · refine .items (b := c!"k: # a list") (t := c!" # a list") (before := []) ⟨[], g0, rfl, rfl⟩
        ⟨.plain (s := c!"k") (g := []) (plain (by decide)) g0 (.inr ⟨_, rfl⟩), c!"k", rfl, by decide⟩
        ⟨c!" ", fun c hc => List.mem_singleton.1 hc, .inr ⟨by decide, _, rfl⟩⟩ (fun _ h => nomatch h) ?_
      refine .more (t := c!" 'it''s'") (l' := c!"  'it''s'") (own := []) (rest := [c!"-  1"]) ⟨[], g0, rfl, rfl⟩ (.inr ⟨_, rfl⟩)
        ⟨c!" ", fun c hc => List.mem_singleton.1 hc, rfl, rfl⟩ ?_ ?_
      · refine .scalar (k := 2) (before := []) (b := c!"'it''s'") (fun _ h => nomatch h) (by decide)
          ⟨c!"  ", fun c hc => by simpa using hc, rfl, rfl⟩ ?_
        exact .flow (s := c!"'it''s'") (t := []) (.single (q := c!"it''s")
          (.char (by decide) (.char (by decide) (.quote (.char (by decide) .nil))))) t0 (fun _ h => nomatch h)
      · refine .one (t := c!"  1") (l' := c!"   1") ⟨[], g0, rfl, rfl⟩ (.inr ⟨_, rfl⟩)
          ⟨c!" ", fun c hc => List.mem_singleton.1 hc, rfl, rfl⟩ ?_
        refine .scalar (k := 3) (before := []) (b := c!"1") (fun _ h => nomatch h) (by decide)
          ⟨c!"   ", fun c hc => by simpa using hc, rfl, rfl⟩ ?_
        exact .flow (s := c!"1") (t := []) (.plain (plain (by decide))) t0 (fun _ h => nomatch h)
  · refine .map (fun e he => ?_) fun e he => ?_
    · rw [List.mem_singleton.1 he]; exact .plain
    · rw [List.mem_singleton.1 he]
      refine .seq fun v hv => ?_
      simp only [List.mem_cons, List.not_mem_nil, or_false] at hv
      rcases hv with rfl | rfl
      · exact .quoted
      · exact .plain
  · exact .cons (.plain (yamlPlain_iff.1 rfl)) (.seq (.cons .quoted (.cons (.plain (yamlPlain_iff.1 rfl)) .nil))) .nil
      (fun _ _ _ h => nomatch h)

-- the file of C90, laid out by hand
example : YamlText looseText boxDoc := C92_read.1 looseText_read

-- and with another comment before it
example : YamlText (c!"   # by hand" ++ '\n' :: looseText) boxDoc :=
  (C92_before ⟨c!"   ", fun c hc => by simpa using hc, .inr ⟨_, rfl⟩⟩ (fun c hc => visible_iff.1
    ((show ∀ c ∈ c!"   # by hand", yamlPrintable c = true by decide) c hc))).2 (C92_read.1 looseText_read)

-- what rops writes
example : YamlText (blockLayout.ops.render quoteDoc) quoteDoc := (C92_written quoteDoc_sound quoteDoc_untagged (by decide +kernel)).2 rfl

-- no document: the same key twice, a line in no column of the others, a comment that touches the text before it
example : (∀ d, ¬ YamlText c!"a: 1\na: 2\n" d) ∧ (∀ d, ¬ YamlText c!"a:\n    b: 1\n  c: 2\n" d) ∧ (∀ d, ¬ YamlText c!"a: 'b'# c\n" d) := by
  refine ⟨C92_refused.1 ?_, C92_refused.1 ?_, C92_refused.1 ?_⟩ <;> exact Option.isNone_iff_eq_none.1 (by decide +kernel)

/-- A mark at the beginning, line breaks of another system, and none at the end. -/
def markedText : Str := c!"# box\r\n--- # v1\r\n\"k\" : 1\r\nl:\r\n  - 'x' # end"

example : YamlText markedText [(.str c!"k", .num (.posInt 1)), (.str c!"l", .seq [.str c!"x"])] := by
  refine C92_read.1 ?_
  have h : blockLayout.read markedText = some [(.quoted c!"k", .plain c!"1"), (.plain c!"l", .seq [.quoted c!"x"])] := by rfl
  show ((blockLayout.read markedText).bind YamlNode.entries).bind yamlDistinct = _
  rw [h]
  rfl

example {d : List (Yaml × Yaml)} : YamlText c!"a: 1\r\nb: 2\r" d ↔ YamlText c!"a: 1\nb: 2\n" d :=
  C92_breaks (breaks_iff.1 rfl) (by decide)

-- no document: a key that is too long, a literal text without its end, two documents
example : (∀ d, ¬ YamlText (List.replicate 1025 'k' ++ c!": 1\n") d) ∧ (∃ d, YamlText (List.replicate 1024 'k' ++ c!": 1\n") d) ∧
    (∀ d, ¬ YamlText c!"a: |\n  x" d) ∧ (∀ d, ¬ YamlText c!"a: 1\n---\nb: 1\n" d) := by
  refine ⟨C92_refused.1 ?_, ?_, C92_refused.1 ?_, C92_refused.1 ?_⟩
  · exact Option.isNone_iff_eq_none.1 (by decide +kernel)
  · cases h : blockLayout.ops.parse (List.replicate 1024 'k' ++ c!": 1\n") with
    | none => exact absurd h (Option.isSome_iff_ne_none.1 (by decide +kernel))
    | some d => exact ⟨d, C92_read.1 h⟩
  · exact Option.isNone_iff_eq_none.1 (by decide +kernel)
  · exact Option.isNone_iff_eq_none.1 (by decide +kernel)

/-- Literal scalars: the line breaks at the end are dropped, kept once, or all kept. -/
def literalsText : Str := c!"a: |- # text\n   x\n    y\n\nb: |\n x\n\nc: |2+\n   x\n\n# end\n"

example : YamlText literalsText [(.str c!"a", .str c!"x\n y"), (.str c!"b", .str c!"x\n"), (.str c!"c", .str c!" x\n\n")] := by
  refine C92_read.1 ?_
  have h : blockLayout.read literalsText =
      some [(.plain c!"a", .quoted c!"x\n y"), (.plain c!"b", .quoted c!"x\n"), (.plain c!"c", .quoted c!" x\n\n")] := by rfl
  show ((blockLayout.read literalsText).bind YamlNode.entries).bind yamlDistinct = _
  rw [h]
  rfl

/-- Collections within brackets. -/
def flowText : Str := c!"a: [1, 'x, y', {k : v, \"l\":2 , }, [], b:c] # flat\nd: { }\n"

example : YamlText flowText
    [(.str c!"a", .seq [.num (.posInt 1), .str c!"x, y", .map [(.str c!"k", .str c!"v"), (.str c!"l", .num (.posInt 2))], .seq [], .str c!"b:c"]),
     (.str c!"d", .map [])] := by
  refine C92_read.1 ?_
  have h : blockLayout.read flowText =
      some [(.plain c!"a", .seq [.plain c!"1", .quoted c!"x, y", .map [(.plain c!"k", .plain c!"v"), (.quoted c!"l", .plain c!"2")], .seq [], .plain c!"b:c"]),
        (.plain c!"d", .map [])] := by rfl
  show ((blockLayout.read flowText).bind YamlNode.entries).bind yamlDistinct = _
  rw [h]
  rfl

-- a file written as JSON on one line
example : YamlText c!"{\"a\":1,\"b\":[true,null]}\n" [(.str c!"a", .num (.posInt 1)), (.str c!"b", .seq [.bool true, .null])] := by
  refine C92_read.1 ?_
  have h : blockLayout.read c!"{\"a\":1,\"b\":[true,null]}\n" =
      some [(.quoted c!"a", .plain c!"1"), (.quoted c!"b", .seq [.plain c!"true", .plain c!"null"])] := by rfl
  show ((blockLayout.read c!"{\"a\":1,\"b\":[true,null]}\n").bind YamlNode.entries).bind yamlDistinct = _
  rw [h]
  rfl

-- no document: an item without text, brackets of two kinds, text after the bracket, the same key twice, no end
example : (∀ d, ¬ YamlText c!"a: [1, , 2]\n" d) ∧ (∀ d, ¬ YamlText c!"a: [1}\n" d) ∧ (∀ d, ¬ YamlText c!"a: [1] 2\n" d) ∧
    (∀ d, ¬ YamlText c!"{a: 1, a: 2}\n" d) ∧ (∀ d, ¬ YamlText c!"a: [1\n" d) := by
  refine ⟨C92_refused.1 ?_, C92_refused.1 ?_, C92_refused.1 ?_, C92_refused.1 ?_, C92_refused.1 ?_⟩ <;>
    exact Option.isNone_iff_eq_none.1 (by decide +kernel)

end Rops.Props
