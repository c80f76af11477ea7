import Verif.Spec.JsonText
import Verif.Spec.CliHistory
/-!
# Histories of JSON files, with the syntax of JSON
-/

namespace Rops.Spec

/-- The floats of JSON texts are finite, and given by the texts that Rust prints for them. -/
def JsonFloatLaws (J : JsonFloats) (fl : FloatOps) : Prop :=
  ∀ x f, JsonNumber J (.float f) x → fl.Canonical f ∧ f ≠ c!"inf" ∧ f ≠ c!"-inf" ∧ f ≠ c!"NaN"

/-- A JSON document that may be encrypted: no top-level key "sops", no key with a ':' (see C08), and
its floats survive being written and read. -/
structure Portable (J : JsonFloats) (d : List (Str × Json)) : Prop where
  sops : c!"sops" ∉ entryKeys d
  colon : NoColon d
  floats : ∀ p f, (p, .num (.float f)) ∈ leaves d → JsonNumber J (.float f) (J.write f)

/-- The JSON file at `path` was encrypted with the document `d` or edited to it, and since then
its keys were changed, it was refreshed, or edits were cancelled, any number of times; now it has the
text `s`. -/
inductive JsonHistory (E : Env) (O : DocOps) (T : (x : Fmt) → TextOps x.doc) (J : JsonFloats) (path : Str) :
    Str → List (Str × Json) → Prop
  | encrypted {P : Proc} {l : EncryptLine} {i : Nat} {s s' : Str} {d : List (Str × Json)} :
    Ran E O T .json path P (.encrypt l) i s s' → J.ops.parse s = some d → Portable J d → JsonHistory E O T J path s' d
  | keysAdded {P : Proc} {a : KeyArgs} {i : Nat} {s s' : Str} {d : List (Str × Json)} : JsonHistory E O T J path s d →
    Ran E O T .json path P (.addKeys a) i s s' → JsonHistory E O T J path s' d
  | keysRemoved {P : Proc} {a : KeyArgs} {i : Nat} {s s' : Str} {d : List (Str × Json)} : JsonHistory E O T J path s d →
    Ran E O T .json path P (.removeKeys a) i s s' → JsonHistory E O T J path s' d
  | refreshed {P : Proc} {l : PlaceLine} {i : Nat} {s s' : Str} {d : List (Str × Json)} : JsonHistory E O T J path s d →
    Ran E O T .json path P (.refresh l) i s s' → JsonHistory E O T J path s' d
  | cancelled {P : Proc} {a : InputArgs} {i : Nat} {s s' : Str} {d : List (Str × Json)} : JsonHistory E O T J path s d →
    Ran E O T .json path P (.edit a) i s s' → Cancelled J.ops.parse P.editor → JsonHistory E O T J path s' d
  | edited {P : Proc} {a : InputArgs} {i : Nat} {s s' : Str} {d d' : List (Str × Json)} : JsonHistory E O T J path s d →
    Ran E O T .json path P (.edit a) i s s' → Edited J.ops.parse d' P.editor → Portable J d' →
    JsonHistory E O T J path s' d'

end Rops.Spec
