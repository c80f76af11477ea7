import Verif.Lemmas.Terminal
import Verif.Lemmas.TomlDates
import Verif.Lemmas.YamlShown
/-!
# C98: documents on a terminal
-/

namespace Rops.Props
open Spec

/-- A text that would clear the screen. -/
def clearScreen : Str := c!"\x1b[2J\x07"

/-- **C98.** No text of a JSON document has control characters of ASCII other than line breaks, and the one that ASCII has last. -/
theorem C98_json (m : List (Str × Json)) : ∀ c ∈ Json.render serdeFloats m, Tame c := (pretty_tame jsonScalar_tame).1 (.map m) 0

/-- **C98.** No text of a TOML document has control characters of ASCII other than line breaks and tabulators. -/
theorem C98_toml {S : TomlScalars} {m : List (Str × Toml)} (h : TomlSound S (.table m)) : ∀ c ∈ Toml.render m, Quiet c :=
  lines_quiet ((inline_quiet.1 (.table m) h).2.1 m rfl) true

/-- **C98.** This goes for all documents that are read. -/
theorem C98_toml_read {s : Str} {m : List (Str × Toml)} (h : rustToml.ops.parse s = some m) : ∀ c ∈ rustToml.ops.render m, Quiet c :=
  C98_toml (sound_of_read (S := rustToml) (fun t f hf => by obtain ⟨x, hx, rfl⟩ := readFloat_show hf; exact float_kept _ hx) (fun _ _ h => rustToml_kept h) _
    (parse_read h))

example : ∀ c ∈ rustToml.ops.render [(c!"a", .str clearScreen)], Quiet c :=
  C98_toml_read (s := c!"a = \"\\u001b[2J\\u0007\"") rfl

/-- **C98.** All characters of the text of a YAML document can be seen, but for the line breaks. -/
theorem C98_yaml {d : List (Yaml × Yaml)} (hu : UntaggedMap d) : ∀ c ∈ blockLayout.ops.render d, c = '\n' ∨ YamlVisible c := by
  have hl := (shown_lines _ (untagged_ok (.map d) hu) 0).1
  have e : blockLayout.ops.render d = ((Yaml.node (.map d)).lines 0).flatMap (· ++ c!"\n") := rfl
  intro c hc
  rw [e] at hc
  obtain ⟨l, h1, h2⟩ := List.mem_flatMap.1 hc
  rcases List.mem_append.1 h2 with h2 | h2
  · exact .inr (visible_iff.1 (hl l h1 c h2))
  · exact .inl (List.mem_singleton.1 h2)

example : Tame '\x1b' → False := by decide
example : Quiet '\x1b' → False := by decide
example : ¬ YamlVisible '\x1b' := by rw [← visible_iff]; decide

-- it is written with escapes
example : Json.render serdeFloats [(clearScreen, .leaf (.str clearScreen))] = c!"{\n  \"\\u001b[2J\\u0007\": \"\\u001b[2J\\u0007\"\n}" := by decide +kernel
example : Toml.render [(clearScreen, .str clearScreen)] = c!"\"\\u001B[2J\\u0007\" = \"\\u001B[2J\\u0007\"\n" := by decide +kernel
example : blockLayout.ops.render [(.str c!"a", .str clearScreen)] = c!"a: \"\\e[2J\\a\"\n" := by decide +kernel

-- these are of use: a document of each kind that meets the conditions
example (S : TomlScalars) : ∀ c ∈ Toml.render [(clearScreen, .str clearScreen)], Quiet c := C98_toml (S := S) (by
  simp [TomlSound, TomlSoundMap])
example : ∀ c ∈ blockLayout.ops.render [(.str c!"a", .str clearScreen)], c = '\n' ∨ YamlVisible c := C98_yaml (by
  simp [UntaggedMap, Untagged])

/-- **C98.** The control characters that are not of ASCII are written as they are into JSON and TOML; terminals may obey them. -/
theorem C98_not_ascii : ('\x9b' ∈ Json.render serdeFloats [(c!"a", .leaf (.str c!"\x9b2J"))] ∧ '\x9b' ∈ Toml.render [(c!"a", .str c!"\x9b2J")]) ∧
    ¬ YamlVisible '\x9b' := ⟨by decide +kernel, by rw [← visible_iff]; decide⟩

end Rops.Props
