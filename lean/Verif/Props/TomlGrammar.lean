import Verif.Lemmas.TomlFine
import Verif.Props.TomlFiles
/-!
# C83: which texts are read as TOML documents
-/

namespace Rops.Props
open Spec

/-- **C83.** A text is read as a document exactly if it is, by the grammar of TOML, lines of
statements that fit together, and the document is what they say. -/
theorem C83_read {S : TomlScalars} (hS : S.date [] = none) {s : Str} {m : List (Str × Toml)} :
    S.ops.parse s = some m ↔ ∃ l, TomlDocumentText S l s ∧ tomlInlineTable l = some (.table m) := by
  have hp : S.ops.parse s = match tomlStmts S (s.length + 1) (tomlMark s) with
    | none => none
    | some l => match TomlStmt.applyAll [] (.table false false []) l with
      | some (.table _ _ m) => some (TomlItem.tomlMap m)
      | _ => none := rfl
  rw [hp]
  constructor
  · intro h
    split at h
    · cases h
    · rename_i l hl
      split at h
      · cases h
        rename_i ha
        exact ⟨l, (tomlStmts_iff hS).1 hl, by rw [tomlInlineTable, ha]; rfl⟩
      · cases h
  · rintro ⟨l, hl, ha⟩
    rw [(tomlStmts_iff hS).2 hl]
    rw [tomlInlineTable, Option.map_eq_some_iff] at ha
    obtain ⟨t, ha, ht⟩ := ha
    have hk := applyAll_isTable l [] ha trivial
    cases t with
    | table i d I =>
      simp only [ha]
      exact congrArg some (Toml.table.inj ht)
    | value v => exact absurd hk id
    | tables l => exact absurd hk id

/-- A text with comments, ends of lines of both kinds, and every kind of value. -/
def grammarText : Str := c!"# first\r
 a.\"b c\" . 'd' =\t0xFF_a # key in parts
day = 1979-05-27\r
list = [ 1_000, # one
  0o17, 0b1_1, +5 ,
]
[ a . e ]
big = [-1.5e0_3, inf, 0.0]
lines = \"\"\"
x \\
   y\\u00e9\"\"z\r
\"\"\"
raw = '''\\n'' '''
[[t]]
p = {}
[[t]]
p = {q.r = true, q.s = false,\ts=''} #"

/-- Its document. -/
def grammarDoc : List (Str × Toml) :=
  [(c!"a", .table [(c!"b c", .table [(c!"d", .int 4090)]),
      (c!"e", .table [(c!"big", .array [.float c!"-1500", .float c!"inf", .float c!"0"]), (c!"lines", .str c!"x yé\"\"z\n"), (c!"raw", .str c!"\\n'' ")])]),
    (c!"day", .datetime c!"1979-05-27"), (c!"list", .array [.int 1000, .int 15, .int 3, .int 5]),
    (c!"t", .array [.table [(c!"p", .table [])],
      .table [(c!"p", .table [(c!"q", .table [(c!"r", .bool true), (c!"s", .bool false)]), (c!"s", .str [])])]])]

set_option maxRecDepth 40000 in
theorem grammarText_read : dayScalars.ops.parse grammarText = some grammarDoc := parsed_same (by decide +kernel)

example : ∃ l, TomlDocumentText dayScalars l grammarText ∧ tomlInlineTable l = some (.table grammarDoc) :=
  (C83_read rfl).1 grammarText_read

-- texts that are not in the grammar: a zero before digits, two underscores, a bare key without a value, a comma
-- too many in an inline table, a number beyond 64 bits, two values on a line, an escape for half a pair
example : [c!"a = 01", c!"a = 1__0", c!"a", c!"a = {b = 1,}", c!"a = 9223372036854775808", c!"a = 1 b = 2",
    c!"a = \"\\ud800\"", c!"a = 'x\ny'", c!"a = 1.", c!"= 1", c!"[a]]", c!"[ [a]]"].map dayScalars.ops.parse = List.replicate 12 none := by
  with_unfolding_all rfl

/-- **C83.** No text stands for two sequences of statements. -/
theorem C83_unambiguous {S : TomlScalars} (hS : S.date [] = none) {s : Str} {l l' : List TomlStmt} (h : TomlDocumentText S l s)
    (h' : TomlDocumentText S l' s) : l = l' :=
  Option.some.inj (((tomlStmts_iff hS).2 h).symm.trans ((tomlStmts_iff hS).2 h'))

/-- **C83.** Only the statements count: white space, comments, empty lines, ends of lines, the choice
of quotes and escapes, and bases and underscores of numbers do not. -/
theorem C83_layout {S : TomlScalars} (hS : S.date [] = none) {s s' : Str} {l : List TomlStmt} (h : TomlDocumentText S l s)
    (h' : TomlDocumentText S l s') : S.ops.parse s = S.ops.parse s' := by
  have key : ∀ {a b : Str} {m}, TomlDocumentText S l a → TomlDocumentText S l b → S.ops.parse a = some m → S.ops.parse b = some m := by
    intro a b m ha hb hp
    obtain ⟨l', h1, h2⟩ := (C83_read hS).1 hp
    rw [C83_unambiguous hS h1 ha] at h2
    exact (C83_read hS).2 ⟨l, hb, h2⟩
  cases hp : S.ops.parse s with
  | some m => rw [key h h' hp]
  | none =>
    cases hp' : S.ops.parse s' with
    | none => rfl
    | some m => rw [key h' h hp'] at hp; cases hp

-- one statement in two ways
example : dayScalars.ops.parse c!"a.b = 16" = dayScalars.ops.parse c!"\n # x\r\n\t'a' . \"\\u0062\" =0x1_0 #" :=
  C83_layout (l := [.entry [c!"a"] c!"b" (.int 16)]) rfl ((tomlStmts_iff rfl).1 (by with_unfolding_all rfl))
    ((tomlStmts_iff rfl).1 (by with_unfolding_all rfl))

/-- **C83.** A text with a control character other than the tabulator and the ends of lines is
refused, wherever the character is. -/
theorem C83_controls {S : TomlScalars} (hS : S.date [] = none) {s : Str} {c : Char} (hc : c ∈ s) (h1 : c.toNat < 32 ∨ c.toNat = 127)
    (h2 : c ≠ '\t' ∧ c ≠ '\n' ∧ c ≠ '\r') : S.ops.parse s = none := by
  cases hp : S.ops.parse s with
  | none => rfl
  | some m =>
    obtain ⟨l, hl, _⟩ := (C83_read hS).1 hp
    rcases document_fine hl c hc with (h | h) | h | h
    · exact absurd h h2.1
    · omega
    · exact absurd h h2.2.1
    · exact absurd h h2.2.2

-- in a comment
example : dayScalars.ops.parse c!"a = 1 # \x07" = none := C83_controls rfl (c := '\x07') (by decide) (by decide) (by decide)

end Rops.Props
