import Verif.Lemmas.TomlWritten
/-!
# C97: how TOML documents are written
-/

namespace Rops.Props
open Spec

/-- **C97.** The text of a TOML document is the one that `Spec.TomlShown` describes, and no other: the entries without sections first, then the sections
with their headers, in order and with empty lines between; tables with nothing but sections have no header; strings are in the quotes that need the
fewest escapes; arrays of more than one element have a line for each. -/
theorem C97_toml {m : List (Str × Toml)} {s : Str} : Toml.render m = s ↔ TomlShown m s :=
  eq_comm.trans shown_toml_iff.symm

/-- A document with values of each kind. -/
def writtenToml : List (Str × Toml) :=
  [(c!"t", .table [(c!"u", .table [(c!"x.y", .int (-3)), (c!"e", .table [])])]),
    (c!"a", .array [.int 1, .array [.bool true], .table [(c!"k", .float c!"2")]]),
    (c!"l", .array [.table [(c!"p", .str c!"C:\\x")], .table []]),
    (c!"s", .str c!"a\nb\x01")]

def writtenTomlText : Str :=
  c!"a = [\n    1,\n    [true],\n    { k = 2.0 },\n]\ns = \"\"\"\na\nb\\u0001\"\"\"\n\n[t.u]\n\"x.y\" = -3\n\n[t.u.e]\n\n[[l]]\np = 'C:\\x'\n\n[[l]]\n"

example : TomlShown writtenToml writtenTomlText := C97_toml.1 (by decide +kernel)

-- not with a header for the table that has sections only
example : ¬ TomlShown [(c!"t", .table [(c!"u", .table [])])] c!"[t]\n\n[t.u]\n" := by
  rw [← C97_toml]
  decide +kernel

example : TomlShown [(c!"t", .table [(c!"u", .table [])])] c!"[t.u]\n" := C97_toml.1 (by decide +kernel)

end Rops.Props
