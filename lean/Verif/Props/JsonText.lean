import Verif.Lemmas.JsonKeys
/-!
# C71: the texts of JSON documents
-/

namespace Rops.Props
open Spec

/-- For the examples: floats are written as Rust prints them, and any number may be a float. -/
def plainFloats : JsonFloats where
  write s := s
  read s := some s

/-- **C71.** A text is read as a document exactly if it is, within white space, an object in the
grammar of JSON with at most 127 levels of arrays and objects; the document has each key at its
first place with its last value (the field "sops" apart). -/
theorem C71_read {J : JsonFloats} {s : Str} {d : List (Str × Json)} :
    J.ops.parse s = some d ↔ ∃ m, WholeText J m s ∧ nesting (.map m) ≤ 127 ∧ TopSettled m d := by
  show Json.parse J s = some d ↔ _
  rw [parse_iff]
  constructor
  · rintro ⟨m, h1, h2, rfl⟩
    exact ⟨m, h1, h2, topSettled_of m⟩
  · rintro ⟨m, h1, h2, h3⟩
    exact ⟨m, h1, h2, topSettled_unique h3 (topSettled_of m)⟩

-- white space, escapes, numbers, and a repeated key
example : plainFloats.ops.parse c!" {\"b\": 1, \"a\":[ -2,1.5e3 , \"\\u00E9\\n\\ud83d\\ude00\"], \"b\":{\"x\":null,\"x\":true}}\n" =
    some [(c!"b", .map [(c!"x", .leaf (.bool true))]),
      (c!"a", .seq [.leaf (.num (.negInt (-2))), .leaf (.num (.float c!"1.5e3")), .leaf (.str c!"é\n😀")])] := by rfl

-- a comma too much, a leading zero, a lone surrogate, a tabulator in a text, and something after the end
example : plainFloats.ops.parse c!"{\"a\": [1,]}" = none ∧ plainFloats.ops.parse c!"{\"a\": 01}" = none ∧
    plainFloats.ops.parse c!"{\"a\": \"\\ud83d\"}" = none ∧ plainFloats.ops.parse c!"{\"a\": \"\t\"}" = none ∧
    plainFloats.ops.parse c!"{} {}" = none ∧ plainFloats.ops.parse c!"[]" = none := ⟨rfl, rfl, rfl, rfl, rfl, rfl⟩

/-- **C71.** No text stands for two objects. -/
theorem C71_unambiguous {J : JsonFloats} {m m' : List (Str × Json)} {s : Str} (h : WholeText J m s) (h' : WholeText J m' s) :
    m = m' := text_unique h h'

example : WholeText plainFloats [(c!"a", .null)] c!"{\"a\":null}" :=
  ⟨[], _, [], jsonWs_nil, by
    simp only [JsonText, JsonMembers]
    exact ⟨_, ⟨[], _, [], [], _, [], [], jsonWs_nil, ⟨_, .cons (.plain (by decide) (by decide) (by decide)) .nil, rfl⟩, jsonWs_nil,
      jsonWs_nil, rfl, jsonWs_nil, jsonWs_nil, .inl ⟨trivial, rfl, rfl⟩⟩, rfl⟩, jsonWs_nil, rfl⟩

/-- **C71.** Deeper documents are refused: their texts are in the grammar, but not read. -/
theorem C71_too_deep {J : JsonFloats} {m : List (Str × Json)} {s : Str} (h : WholeText J m s)
    (hn : 127 < nesting (.map m)) : J.ops.parse s = none := by
  cases hp : J.ops.parse s with
  | none => rfl
  | some d =>
    obtain ⟨m', h1, h2, _⟩ := C71_read.1 hp
    rw [text_unique h1 h] at h2
    omega

/-- **C71.** What is written for a document is a text of it in the grammar. -/
theorem C71_written {J : JsonFloats} {d : List (Str × Json)} (h : ∀ pv ∈ leaves d, ScalarKept J pv.2) :
    WholeText J d (J.ops.render d) :=
  ⟨[], _, [], jsonWs_nil, (pretty_text J).1 (.map d) [] 0 (by simp only [leavesAt]; exact h), jsonWs_nil, by
    show Json.render J d = _
    simp [Json.render]⟩

example : plainFloats.ops.render [(c!"a", .seq [.leaf (.num (.posInt 1)), .map []]), (c!"b\"\n\x1b", .leaf (.num (.float c!"1.5")))] =
    c!"{\n  \"a\": [\n    1,\n    {}\n  ],\n  \"b\\\"\\n\\u001b\": 1.5\n}" := by decide +kernel

/-- Arrays in arrays. -/
def nestedArrays : Nat → Json
  | 0 => .null
  | n + 1 => .seq [nestedArrays n]

-- an object with 127 arrays in it can be written, but is not read again; with 126 it is
set_option maxRecDepth 20000 in
example : plainFloats.ops.parse (plainFloats.ops.render [(c!"a", nestedArrays 127)]) = none :=
  C71_too_deep (C71_written (fun _ h => by cases h)) (by decide)

/-- **C71.** A document of at most 127 levels with distinct keys, and with floats that survive, is
read from the text written for it as it was. -/
theorem C71_laws (J : JsonFloats) : TextLaws J.ops (JsonKept J) where
  parse_render d h := parse_render_kept h

set_option maxRecDepth 20000 in
example : plainFloats.ops.parse (plainFloats.ops.render [(c!"a", nestedArrays 126)]) = some [(c!"a", nestedArrays 126)] :=
  (C71_laws plainFloats).parse_render _ ⟨by decide, (fun _ h => by cases h), by decide, fun e he _ => by
    simp only [List.mem_singleton] at he
    subst he
    simp only [nestedArrays, DistinctKeys, DistinctKeysSeq, and_self]⟩

/-- **C71.** If every float that is read survives being written and read, then so does every
document that is read: from then on its text does not change. -/
theorem C71_stable {J : JsonFloats} (hJ : ∀ x f, JsonNumber J (.float f) x → JsonNumber J (.float f) (J.write f)) {s : Str}
    {d : List (Str × Json)} (h : J.ops.parse s = some d) : JsonKept J d ∧ J.ops.parse (J.ops.render d) = some d := by
  have hf : ∀ pv ∈ leaves d, ∀ f, pv.2 = .num (.float f) → JsonNumber J (.float f) (J.write f) :=
    parsed_scalars (P := fun v => ∀ f, v = .num (.float f) → JsonNumber J (.float f) (J.write f)) (fun _ _ h => nomatch h)
      (fun _ _ h => nomatch h) (fun x n hx f hf => by cases hf; exact hJ x f hx) h
  have hk : JsonKept J d := kept_of_parse h fun p f hp => hf _ hp f rfl
  exact ⟨hk, parse_render_kept hk⟩

theorem plainFloats_kept (x f : Str) (h : JsonNumber plainFloats (.float f) x) : JsonNumber plainFloats (.float f) f := by
  have h' := h
  cases h with
  | float _ _ _ _ _ hr => cases hr; exact h'

example : plainFloats.ops.parse (plainFloats.ops.render [(c!"a", .leaf (.num (.float c!"1.5")))]) =
    some [(c!"a", .leaf (.num (.float c!"1.5")))] :=
  (C71_stable (s := c!"{\"a\":1.5}") plainFloats_kept rfl).2

end Rops.Props
