import Verif.Lemmas.YamlShown
/-!
# C94: how YAML documents are written
-/

namespace Rops.Props
open Spec

/-- **C94.** The text of a document has the lines that `Spec.NodeLines` describes: texts are plain where this is safe, in single quotes if nothing must
be escaped, literal if they have several lines, and in double quotes else, with escapes as short as possible; keys are before a colon unless they are
long or no scalars; items are at the column of the mapping that they are in. -/
theorem C94_written {d : List (Yaml × Yaml)} (hs : YamlSound (.map d)) (hu : UntaggedMap d) :
    ∃ ls, NodeLines 0 (.map d) ls ∧ LinesText (blockLayout.ops.render d) ls := by
  refine ⟨_, (node_shown (.map d) hs hu 0).1.1, ?_, (flatten_join _).symm⟩
  intro l hl hn
  exact absurd (visible_iff.1 ((shown_lines _ (untagged_ok (.map d) hu) 0).1 l hl _ hn)) break_hidden

/-- A document with texts of each kind, and a key that is a sequence. -/
def shownDoc : List (Yaml × Yaml) :=
  [(.str c!"a", .seq [.str c!"x y", .str c!"yes", .str c!"it's: ", .str c!"\t\"", .seq [.num (.negInt (-3)), .null]]),
    (.str c!"12", .map [(.bool true, .str c!" two\n\nlines"), (.num (.posInt 7), .str c!"one\n"), (.null, .str c!"b \nc"), (.str c!"e", .map [])]),
    (.seq [.str c!"k", .str c!"\n"], .str c!"\x7f")]

/-- What is written for it. -/
def shownText : Str :=
  c!"a:\n- x y\n- 'yes'\n- 'it''s: '\n- \"\\t\\\"\"\n- - -3\n  - null\n'12':\n  true: |2-\n     two\n\n    lines\n  7: |\n    one\n  null: \"b \\nc\"\n  e: {}\n? - k\n  - |2+\n\n: \"\\x7F\"\n"

theorem shownDoc_fits : YamlSound (.map shownDoc) ∧ UntaggedMap shownDoc ∧ NoFloatsMap shownDoc := by
  refine ⟨?_, ?_, ?_⟩
  · simp [shownDoc, YamlSound, YamlSoundSeq, YamlSoundMap, yamlTextKeys]
  · simp [shownDoc, UntaggedMap, Untagged, UntaggedSeq]
  · simp [shownDoc, NoFloatsMap, NoFloats, NoFloatsSeq]

theorem shownDoc_text : blockLayout.ops.render shownDoc = shownText := by decide +kernel

example : ∃ ls, NodeLines 0 (.map shownDoc) ls ∧ LinesText shownText ls := by
  rw [← shownDoc_text]
  exact C94_written shownDoc_fits.1 shownDoc_fits.2.1

/-- **C94.** Without floats no other text has such lines. -/
theorem C94_only {d : List (Yaml × Yaml)} (hs : YamlSound (.map d)) (hu : UntaggedMap d) (hf : NoFloatsMap d) {s : Str} :
    blockLayout.ops.render d = s ↔ ∃ ls, NodeLines 0 (.map d) ls ∧ LinesText s ls := by
  obtain ⟨ls, h1, h2⟩ := C94_written hs hu
  constructor
  · rintro rfl
    exact ⟨ls, h1, h2⟩
  · rintro ⟨ls', h1', h2'⟩
    rw [h2.2, h2'.2, node_only (.map d) hf h1 h1']

-- not with other quotes
example : ¬ ∃ ls, NodeLines 0 (.map [(.str c!"a", .str c!"b")]) ls ∧ LinesText c!"a: 'b'\n" ls := by
  rw [← C94_only (by simp [YamlSound, YamlSoundMap, yamlTextKeys]) (by simp [UntaggedMap, Untagged]) (by simp [NoFloatsMap, NoFloats])]
  decide +kernel

/-- **C94.** No line has a space at its end. -/
theorem C94_trimmed {d : List (Yaml × Yaml)} (hs : YamlSound (.map d)) (hu : UntaggedMap d) {ls : List Str}
    (h : LinesText (blockLayout.ops.render d) ls) : ∀ l ∈ ls, Trimmed l := by
  obtain ⟨ls', h1, h2⟩ := C94_written hs hu
  rw [linesText_only h h2]
  exact node_trimmed _ h1

example {ls : List Str} (h : LinesText shownText ls) : ∀ l ∈ ls, Trimmed l :=
  C94_trimmed shownDoc_fits.1 shownDoc_fits.2.1 (by rw [shownDoc_text]; exact h)

end Rops.Props
