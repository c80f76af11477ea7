import Verif.Lemmas.TomlOrder
/-!
# C81: the texts of TOML documents
-/

namespace Rops.Props
open Spec

/-- For the examples: two days. -/
def dayOnly (s : Str) : Option Str := if s = c!"1979-05-27" ∨ s = c!"2000-01-01" then some s else none

/-- For the examples: the floats of Rust, and two days. -/
def dayScalars : TomlScalars := rustScalars dayOnly

/-- **C81.** A document with distinct keys in each table, with floats and dates that survive, and
with not too many levels is read from the text written for it as it was, but for the order of its
entries: in each table those without sections of their own are first. -/
theorem C81_laws (S : TomlScalars) : TextLaws S.ops (TomlWritable S) where
  parse_render _ h := toml_parse_render h

/-- The document of the examples. -/
def sampleToml : List (Str × Toml) :=
  [(c!"hello", .str c!"world!"), (c!"nested map", .table [(c!"null_key", .str c!"null"),
      (c!"array", .array [.str c!"it's \"x\"", .table [(c!"inner", .table [(c!"integer", .int (-1234))])], .array []])]),
    (c!"booleans", .array [.bool true, .bool false]), (c!"lines", .str c!"a\n\x1b\"b\""),
    (c!"a", .table [(c!"b", .array [.table [(c!"c", .float c!"1")], .table []]), (c!"d", .table [])]), (c!"", .datetime c!"1979-05-27")]

-- quotes are chosen, control characters escaped, tables and arrays of tables have headers, and "a" needs none
set_option maxRecDepth 20000 in
example : dayScalars.ops.render sampleToml = c!"hello = \"world!\"
booleans = [
    true,
    false,
]
lines = \"\"\"
a
\\u001B\\\"b\\\"\"\"\"
\"\" = 1979-05-27

[\"nested map\"]
null_key = \"null\"
array = [
    '''it's \"x\"''',
    { inner = { integer = -1234 } },
    [],
]

[[a.b]]
c = 1.0

[[a.b]]

[a.d]
" := by decide +kernel

theorem one_inRange : InRange (.finite false f64One) := inRange_finite.2 ⟨isFloat_mul_pow (v := 1) (isFloat_small (by decide)) 1074 |>.imp (by
  rintro m ⟨e, h1, h2⟩; exact ⟨e, h1, by rw [f64One_eq]; simpa using h2⟩), by decide +kernel⟩

theorem one_show : (F64.finite false f64One).show = c!"1" := by decide +kernel

theorem one_kept : TomlScalarKept dayScalars c!"1.0" (.float c!"1") := by
  have := float_kept dayOnly one_inRange
  rw [one_show] at this
  exact this

theorem sampleToml_writable : TomlWritable dayScalars sampleToml where
  sound := by
    simp only [sampleToml, TomlSound, TomlSoundMap, TomlSoundSeq, and_true, true_and]
    refine ⟨by decide, ⟨by decide, by decide, by decide⟩, ⟨by decide, ⟨⟨by decide, one_kept⟩, by decide⟩, by decide⟩, by decide, by decide, rfl⟩
  levels := by decide

example : dayScalars.ops.parse (dayScalars.ops.render sampleToml) = some (DocFormat.toml.order sampleToml) :=
  (C81_laws dayScalars).parse_render _ sampleToml_writable

/-- **C81.** Every float of Rust survives being written and read, with its sign and also if it is
infinite or not a number. -/
theorem C81_floats (date : Str → Option Str) {f : F64} (hf : InRange f) (k : Str) :
    (rustScalars date).ops.parse ((rustScalars date).ops.render [(k, .float f.show)]) = some [(k, .float f.show)] := by
  have := (C81_laws (rustScalars date)).parse_render [(k, .float f.show)] ⟨by
    simp only [TomlSound, TomlSoundMap, and_true]
    exact ⟨List.nodup_cons.2 ⟨(fun h => nomatch h), List.nodup_nil⟩, float_kept date hf⟩, by
    simp only [tomlLevels, tomlLevelsMap]; exact (by decide : 1 < 80)⟩
  exact this

example : (rustScalars dayOnly).ops.parse ((rustScalars dayOnly).ops.render [(c!"x", .float c!"1")]) = some [(c!"x", .float c!"1")] := by
  have := C81_floats dayOnly one_inRange c!"x"
  rw [one_show] at this
  exact this

/-- **C81.** In a document that is read no key is twice in a table, and its floats and dates are
read from texts. -/
theorem C81_distinct {S : TomlScalars} {s : Str} {d : List (Str × Toml)} (h : S.ops.parse s = some d) : TomlRead S (.table d) :=
  parse_read h

-- comments, bases, escapes, a key in parts, a table that is defined after a table in it, and arrays of tables
set_option maxRecDepth 20000 in
example : dayScalars.ops.parse c!"# x\r\n'a b'.c = 0xf_F # y\n\"a b\" . d = [ # z\n 1_000 ,\n ]\n[p.q]\nx = '\\'\n[[t]]\ny = \"\\u00e9\\t\"\n[p]\nz = { u.v = true, u.w = 2000-01-01 }\n[[t]]\n[t.s]" =
    some [(c!"a b", .table [(c!"c", .int 255), (c!"d", .array [.int 1000])]),
      (c!"t", .array [.table [(c!"y", .str c!"é\t")], .table [(c!"s", .table [])]]),
      (c!"p", .table [(c!"q", .table [(c!"x", .str c!"\\")]),
        (c!"z", .table [(c!"u", .table [(c!"v", .bool true), (c!"w", .datetime c!"2000-01-01")])])])] := by rfl

-- keys that are twice in a table, and tables that are defined twice
example : dayScalars.ops.parse c!"a = 1\na = 2\n" = none ∧ dayScalars.ops.parse c!"a = { b = 1, b = 2 }\n" = none ∧
    dayScalars.ops.parse c!"[a]\n[a]\n" = none ∧ dayScalars.ops.parse c!"a.b = 1\n[a]\n" = none ∧
    dayScalars.ops.parse c!"a = []\n[[a]]\n" = none ∧ dayScalars.ops.parse c!"a = {}\na.b = 1\n" = none ∧
    dayScalars.ops.parse c!"[a.b]\n[a]\nb.c = 1\n" = none := ⟨rfl, rfl, rfl, rfl, rfl, rfl, rfl⟩

-- two entries on a line, no value, a leading zero, a number that does not fit, a line end within quotes
example : dayScalars.ops.parse c!"a = 1 b = 2\n" = none ∧ dayScalars.ops.parse c!"a =\n" = none ∧
    dayScalars.ops.parse c!"a = 01\n" = none ∧ dayScalars.ops.parse c!"a = 9223372036854775808\n" = none ∧
    dayScalars.ops.parse c!"a = \"x\ny\"\n" = none := ⟨rfl, rfl, rfl, rfl, rfl⟩

/-- **C81.** A document that is read, if it has not too many levels and its dates survive, is read
again from the text written for it, in its order; from then on neither it nor its text changes. -/
theorem C81_stable {date : Str → Option Str}
    (hd : ∀ t x, date t = some x → TomlScalarKept (rustScalars date) x (.datetime x)) {s : Str} {d : List (Str × Toml)}
    (h : (rustScalars date).ops.parse s = some d) (hl : tomlLevels (.table d) < 80) :
    (rustScalars date).ops.parse ((rustScalars date).ops.render d) = some (DocFormat.toml.order d) ∧
    DocFormat.toml.order (DocFormat.toml.order d) = DocFormat.toml.order d ∧
    (rustScalars date).ops.render (DocFormat.toml.order d) = (rustScalars date).ops.render d := by
  refine ⟨(C81_laws _).parse_render d ⟨sound_of_read (fun t f hf => ?_) hd _ (parse_read h), hl⟩, order_settled d, render_order d⟩
  obtain ⟨x, hx, rfl⟩ := readFloat_show hf
  exact float_kept date hx

theorem dayOnly_kept (t x : Str) (h : dayOnly t = some x) : TomlScalarKept dayScalars x (.datetime x) := by
  unfold dayOnly at h
  split at h
  · rename_i ht
    cases h
    rcases ht with rfl | rfl <;> exact ⟨by decide, by decide, rfl⟩
  · cases h

set_option maxRecDepth 20000 in
example : ∃ d, dayScalars.ops.parse c!"a.b = 2000-01-01\n[p.q]\n[p]\nx = 1.0\n" = some d ∧
    dayScalars.ops.render d = c!"[a]\nb = 2000-01-01\n\n[p]\nx = 1.0\n\n[p.q]\n" ∧
    dayScalars.ops.parse (dayScalars.ops.render d) = some (DocFormat.toml.order d) := by
  have h : ((dayScalars.ops.parse c!"a.b = 2000-01-01\n[p.q]\n[p]\nx = 1.0\n").map fun d =>
      (dayScalars.ops.render d, decide (tomlLevels (.table d) < 80))) =
      some (c!"[a]\nb = 2000-01-01\n\n[p]\nx = 1.0\n\n[p.q]\n", true) := by decide +kernel
  cases hp : dayScalars.ops.parse c!"a.b = 2000-01-01\n[p.q]\n[p]\nx = 1.0\n" with
  | none => rw [hp] at h; cases h
  | some d =>
    rw [hp] at h
    obtain ⟨h1, h2⟩ := Prod.mk.inj (Option.some.inj h)
    exact ⟨d, rfl, h1, (C81_stable dayOnly_kept hp (of_decide_eq_true h2)).1⟩

/-- A key with so many parts. -/
def longKey : Nat → Str
  | 0 => c!"a"
  | n + 1 => c!"a." ++ longKey n

/-- A header and an entry with many parts each. -/
def deepToml : Str := '[' :: (longKey 49 ++ (c!"]\n" ++ (longKey 49 ++ c!" = ''\n")))

/-- Tables within tables. -/
def nestedTables : Nat → Toml
  | 0 => .str []
  | n + 1 => .table [(c!"a", nestedTables n)]

set_option maxRecDepth 100000 in
/-- **C81, negative.** A text with a header of fifty parts and a key of fifty parts in it is read, but
what is written for its document, a header of ninety-nine parts, is not: a document with too many
levels does not survive. -/
theorem C81_deep (date : Str → Option Str) : ∃ d, (rustScalars date).ops.parse deepToml = some d ∧
    ¬ tomlLevels (.table d) < 80 ∧ (rustScalars date).ops.parse ((rustScalars date).ops.render d) = none :=
  ⟨[(c!"a", nestedTables 99)], rfl, by decide, by with_unfolding_all rfl⟩

end Rops.Props
