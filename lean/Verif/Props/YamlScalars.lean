import Verif.Lemmas.YamlScalars
/-!
# C87: Scalars in YAML keep their types

`serde_yaml` writes values without their types: a plain scalar is a null, a truth value, a number or
a text by what it looks like. The layout of documents (`libyaml`) is a parameter.
-/

namespace Rops.Props
open Spec

/-- **C87.** What plain scalars are read as: words, integers, floats, and everything else as the text
that it is. Integers of more than 64 bits are refused, unless they have more than 128. -/
theorem C87_read {s : Str} {v : Option Yaml} : yamlPlain s = v ↔ YamlPlainText v s := yamlPlain_iff

example : yamlPlain c!"0x1F" = some (.num (.posInt 31)) ∧ yamlPlain c!"-0" = some (.num (.posInt 0)) ∧
    yamlPlain c!"-0b11" = some (.num (.negInt (-3))) ∧ yamlPlain c!"007" = some (.str c!"007") ∧
    yamlPlain c!"18446744073709551616" = none ∧ yamlPlain c!"-9223372036854775809" = none ∧
    yamlPlain c!"+.inf" = some (.num (.float c!"inf")) ∧ yamlPlain c!"yes" = some (.str c!"yes") ∧
    yamlPlain c!"1_000" = some (.str c!"1_000") ∧ yamlPlain c!"0x" = some (.str c!"0x") ∧ yamlPlain c!"++1" = some (.str c!"++1") :=
  ⟨rfl, rfl, rfl, rfl, rfl, rfl, rfl, rfl, rfl, rfl, rfl⟩

/-- Numbers out of the range of floats are texts, and integers of more than 128 bits are floats. -/
example : yamlVisit c!"1e400" = .text ∧ yamlVisit c!"1e308" ≠ .text ∧
    yamlVisit c!"340282366920938463463374607431768211455" = .wide ∧
    yamlVisit c!"340282366920938463463374607431768211456" ≠ .text ∧ yamlVisit c!"340282366920938463463374607431768211456" ≠ .wide := by
  decide +kernel

/-- **C87.** No text can be taken for two values. -/
theorem C87_unambiguous {s : Str} {v w : Option Yaml} (hv : YamlPlainText v s) (hw : YamlPlainText w s) : v = w := by
  rw [← yamlPlain_iff.2 hv, yamlPlain_iff.2 hw]

/-- **C87.** A text is left to the layout, which may write it as a plain scalar, exactly if it is read
as itself then, is on one line, is no truth value of YAML 1.1 and no number with zeros before it. -/
theorem C87_plain {s : Str} : yamlStyle s = .any ↔
    YamlPlainText (some (.str s)) s ∧ '\n' ∉ s ∧ ¬ OldTruth s ∧ ¬ ZerosFirst s := by
  rw [oldTruth_iff]
  rw [style_any_iff, yamlPlain_iff]
  exact ⟨fun ⟨a, b, c, d⟩ => ⟨d, b, a, c⟩, fun ⟨a, b, c, d⟩ => ⟨c, b, d, a⟩⟩

example : yamlStyle c!"ENC[AES256_GCM,data:Tr7o,iv:1=,tag:k=,type:str]" = .any ∧ yamlStyle c!"2024-03-01T08:00:00Z" = .any ∧
    yamlStyle c!"null" = .single ∧ yamlStyle c!"" = .single ∧ yamlStyle c!"1e5" = .single ∧ yamlStyle c!"on" = .single ∧
    yamlStyle c!"007" = .single ∧ yamlStyle c!"12345678901234567890" = .single ∧ yamlStyle c!"a\nb" = .literal ∧
    yamlStyle c!".5" = .single ∧ yamlStyle c!"1e400" = .any := by
  decide +kernel

/-- **C87.** However the layout writes a text, where it may choose, the text is read. -/
theorem C87_texts {s : Str} {n : YamlNode} (h : YamlChosen (yamlTextNode s) n) : n.value = some (.str s) := textNode_value h

example : YamlChosen (yamlTextNode c!"root") (.plain c!"root") ∧ YamlChosen (yamlTextNode c!"root") (.quoted c!"root") := ⟨.free, .quote⟩

/-- Were every text written as a plain scalar, some would be read as numbers or truth values. -/
example : yamlPlain c!"12" = some (.num (.posInt 12)) ∧ yamlPlain c!"true" = some (.bool true) ∧ yamlPlain c!"" = some .null := ⟨rfl, rfl, rfl⟩

/-- **C87.** Numbers, which are written as plain scalars, are read as the same numbers: integers as
integers with all of their digits, floats as floats. -/
theorem C87_numbers {n : Number} (h : YamlSound (.num n)) : YamlPlainText (some (.num n)) (yamlNumber n) := .inl (number_read h)

example : yamlNumber (.posInt 18446744073709551615) = c!"18446744073709551615" ∧
    yamlNumber (.negInt (-9223372036854775808)) = c!"-9223372036854775808" ∧ yamlNumber (.float c!"inf") = c!".inf" ∧
    yamlNumber (.float c!"1") = c!"1.0" ∧ yamlNumber (.float c!"-0") = c!"-0.0" := by
  decide +kernel

/-- **C87.** If the layout reads what it writes, then so does `serde_yaml`: the parameter for YAML is
reduced to the layout. -/
theorem C87_documents {L : YamlLayout} {ok : List (YamlNode × YamlNode) → Prop} (hL : YamlLayoutLaws L ok) :
    TextLaws L.ops fun d => ok (Yaml.entryNodes d) ∧ YamlSound (.map d) where
  parse_render _ h := yaml_parse_render hL h.1 h.2

/-- **C87.** Whatever text a document was read from, it is read from the text that is written for it. -/
theorem C87_stable {L : YamlLayout} {ok : List (YamlNode × YamlNode) → Prop} (hL : YamlLayoutLaws L ok) {s : Str}
    {d : List (Yaml × Yaml)} (h : L.ops.parse s = some d) (hok : ok (Yaml.entryNodes d)) : L.ops.parse (L.ops.render d) = some d :=
  yaml_parse_render hL hok (yaml_parse_sound h)

/-! ## An example of a layout -/

/-- A document with texts that look like other values. -/
def trickyDoc : List (Yaml × Yaml) :=
  [(.str c!"a", .str c!"12"), (.str c!"b", .num (.posInt 12)), (.str c!"c", .seq [.str c!"null", .null, .str c!"root"]),
    (.str c!"yes", .map [(.str c!"on", .bool true)])]

/-- The document as it is written. -/
def trickyNodes : List (YamlNode × YamlNode) :=
  [(.plain c!"a", .quoted c!"12"), (.plain c!"b", .plain c!"12"),
    (.plain c!"c", .seq [.quoted c!"null", .plain c!"null", .plain c!"root"]), (.quoted c!"yes", .map [(.quoted c!"on", .plain c!"true")])]

/-- A layout that knows two texts: one with each free scalar as a plain one, and one with quotes. -/
def trickyLayout : YamlLayout where
  write _ := c!"a: '12'\nb: 12\nc:\n- 'null'\n- null\n- root\n'yes':\n  'on': true\n"
  read s :=
    if s = c!"a: '12'\nb: 12\nc:\n- 'null'\n- null\n- root\n'yes':\n  'on': true\n" then
      some trickyNodes
    else if s = c!"a: \"12\"\nb: 0xC\nc: ['null', ~, 'root']\n'yes': {on: True}\n" then
      some [(.plain c!"a", .quoted c!"12"), (.plain c!"b", .plain c!"0xC"),
        (.plain c!"c", .seq [.quoted c!"null", .plain c!"~", .quoted c!"root"]), (.quoted c!"yes", .map [(.plain c!"on", .plain c!"True")])]
    else none

theorem trickyLayout_laws : YamlLayoutLaws trickyLayout (· = Yaml.entryNodes trickyDoc) where
  read_write l h := by
    subst h
    exact ⟨trickyNodes, rfl, .cons .free .quoted (.cons .free .plain (.cons .free (.seq (.cons .quoted (.cons .plain (.cons .free .nil))))
      (.cons .quoted (.map (.cons .quoted .plain .nil)) .nil)))⟩

example : trickyLayout.ops.parse c!"a: \"12\"\nb: 0xC\nc: ['null', ~, 'root']\n'yes': {on: True}\n" = some trickyDoc ∧
    trickyLayout.ops.parse (trickyLayout.ops.render trickyDoc) = some trickyDoc := by
  have h : trickyLayout.ops.parse c!"a: \"12\"\nb: 0xC\nc: ['null', ~, 'root']\n'yes': {on: True}\n" = some trickyDoc := rfl
  exact ⟨h, C87_stable trickyLayout_laws h rfl⟩

end Rops.Props
