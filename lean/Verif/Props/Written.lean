import Verif.Lemmas.JsonShown
/-!
# C96: how JSON documents are written
-/

namespace Rops.Props
open Spec

/-- **C96.** The text of a JSON document is the one that `Spec.JsonShown` describes: each element and each member on a line of its own, two spaces
further right for each level; characters as they are, or by their letter, or by their number in small letters; integers without zeros first; floats as
a shortest decimal. -/
theorem C96_json {m : List (Str × Json)} (h : JsonNumbers m) : JsonShown 0 (.map m) (Json.render serdeFloats m) :=
  (pretty_shown (fun a => (∀ n, a = .num (.negInt n) → n.toInt < 0) ∧ ∀ f, a = .num (.float f) → ∃ x, InRange x ∧ f = x.show)
    fun _ ha => jsonScalar_shown ha.1 ha.2).1 (.map m) [] 0 h

/-- **C96.** Without floats it is the only such text. -/
theorem C96_json_only {m : List (Str × Json)} (h : JsonNumbers m) (hf : JsonFloatless m) {s : Str} :
    Json.render serdeFloats m = s ↔ JsonShown 0 (.map m) s := by
  constructor
  · rintro rfl
    exact C96_json h
  · intro hs
    exact (shown_json_only (fun a => ∀ f, a ≠ .num (.float f)) fun _ _ _ => jsonScalar_only).1 (.map m) [] 0 _ _ hf (C96_json h) hs

/-- A document with values of each kind. -/
def writtenJson : List (Str × Json) :=
  [(c!"a/\"\n", .seq [.leaf (.num (.negInt (-12))), .map [], .seq [], .leaf (.bool true), .null]),
    (c!"", .map [(c!"é", .leaf (.str c!"\x01\x7f\\")), (c!"n", .leaf (.num (.posInt 0)))])]

def writtenJsonText : Str :=
  c!"{\n  \"a/\\\"\\n\": [\n    -12,\n    {},\n    [],\n    true,\n    null\n  ],\n  \"\": {\n    \"é\": \"\\u0001\x7f\\\\\",\n    \"n\": 0\n  }\n}"

theorem writtenJson_fits : JsonNumbers writtenJson ∧ JsonFloatless writtenJson := by
  constructor
  · intro e he
    simp only [writtenJson, leaves, leavesMap, leavesAt, leavesSeq, List.append_nil, List.nil_append, List.cons_append, List.mem_cons, List.not_mem_nil, or_false] at he
    rcases he with rfl | rfl | rfl | rfl <;> refine ⟨?_, nofun⟩ <;> intro n hn <;> cases hn
    decide
  · intro e he f
    simp only [writtenJson, leaves, leavesMap, leavesAt, leavesSeq, List.append_nil, List.nil_append, List.cons_append, List.mem_cons, List.not_mem_nil, or_false] at he
    rcases he with rfl | rfl | rfl | rfl <;> simp

example : JsonShown 0 (.map writtenJson) writtenJsonText :=
  (C96_json_only writtenJson_fits.1 writtenJson_fits.2).1 (by decide +kernel)

-- not on one line, and not with other escapes
example : ¬ JsonShown 0 (.map writtenJson) c!"{}" := by
  rw [← C96_json_only writtenJson_fits.1 writtenJson_fits.2]
  decide +kernel

end Rops.Props
