import Verif.Lemmas.TomlFit
import Verif.Props.TomlGrammar
/-!
# C84 and C85: what TOML documents say, and which statements fit together
-/

namespace Rops.Props
open Spec

/-- **C84.** The document that is read holds what the statements of its text say, and nothing else: the
value of each entry at the place of its key, below the last header, in the last table of each array of
tables on the way; the tables and arrays of tables on the ways; and one value at each place. -/
theorem C84_means {S : TomlScalars} (hS : S.date [] = none) {s : Str} {l : List TomlStmt} {m : List (Str × Toml)} (hl : TomlDocumentText S l s)
    (hp : S.ops.parse s = some m) : TomlMeans l (.table m) := by
  obtain ⟨l', h1, h2⟩ := (C83_read hS).1 hp
  rw [C83_unambiguous hS h1 hl] at h2
  exact means_table (document_stmts hS hl) h2

/-- The statements of an example: keys in parts, and tables of arrays within tables of arrays. -/
def saidText : Str := c!"a.b = 1
[[t]]
x = 'one'
[[t.u]]
y = [2, {z.w = 3}]
[[t]]
[[t.u]]
y = 4
[t.v]
[a.c.d]
"

def saidStmts : List TomlStmt := [.entry [c!"a"] c!"b" (.int 1), .element [c!"t"], .entry [] c!"x" (.str c!"one"), .element [c!"t", c!"u"],
  .entry [] c!"y" (.array [.int 2, .table [(c!"z", .table [(c!"w", .int 3)])]]), .element [c!"t"], .element [c!"t", c!"u"],
  .entry [] c!"y" (.int 4), .table [c!"t", c!"v"], .table [c!"a", c!"c", c!"d"]]

def saidDoc : List (Str × Toml) := [(c!"a", .table [(c!"b", .int 1), (c!"c", .table [(c!"d", .table [])])]),
  (c!"t", .array [.table [(c!"x", .str c!"one"), (c!"u", .array [.table [(c!"y", .array [.int 2, .table [(c!"z", .table [(c!"w", .int 3)])]])]])],
    .table [(c!"u", .array [.table [(c!"y", .int 4)]]), (c!"v", .table [])]])]

theorem saidText_stmts : TomlDocumentText dayScalars saidStmts saidText := (tomlStmts_iff rfl).1 (by with_unfolding_all rfl)

theorem saidText_read : dayScalars.ops.parse saidText = some saidDoc := parsed_same (by decide +kernel)

-- the last entry is in the last table of the array in the last table of the array
example : TomlIn (.table saidDoc) [.key c!"t", .index 1, .key c!"u", .index 0, .key c!"y"] (.int 4) :=
  (C84_means rfl saidText_stmts saidText_read).values _ _
    (.stmt (a := saidStmts.take 7) (b := saidStmts.drop 8) rfl (SaidBy.value (w := []) .here))

-- and nothing is beside it
example : ¬ ∃ v, TomlIn (.table saidDoc) [.key c!"t", .index 1, .key c!"u", .index 0, .key c!"z"] v := by
  rintro ⟨v, h⟩
  rcases h with _ | ⟨h, h'⟩ | _
  simp [saidDoc] at h
  subst h
  rcases h' with _ | _ | ⟨hi, h'⟩
  simp at hi
  subst hi
  rcases h' with _ | ⟨h, h'⟩ | _
  simp at h
  subst h
  rcases h' with _ | _ | ⟨hi, h'⟩
  simp at hi
  subst hi
  rcases h' with _ | ⟨h, h'⟩ | _
  simp at h

/-- **C84.** The statements leave nothing open but the order of keys. -/
theorem C84_determined {l : List TomlStmt} {t t' : Toml} (h : TomlMeans l t) (h' : TomlMeans l t') {w : List PlaceStep} {v : Toml}
    (hv : TomlIn t w v) : TomlIn t' w v ∨ (TomlHolder v ∧ ∃ v', TomlHolder v' ∧ TomlIn t' w v') := by
  rcases h.only w v hv with h1 | ⟨h1, h2⟩
  · exact .inl (h'.values w v h1)
  · exact .inr ⟨h2, h'.tables w h1⟩

-- any table that those statements describe has the value
example {t : Toml} (h : TomlMeans saidStmts t) : TomlIn t [.key c!"a", .key c!"b"] (.int 1) :=
  (C84_determined (C84_means rfl saidText_stmts saidText_read) h (w := [.key c!"a", .key c!"b"]) (v := .int 1)
    (.key (by simp [saidDoc]; rfl) (.key (.head _) .here))).resolve_right (fun h => h.1)

/-- **C84.** No entry is for a place of which something was said before: it replaces nothing. -/
theorem C84_once {S : TomlScalars} (hS : S.date [] = none) {s : Str} {a b : List TomlStmt} {p : List Str} {k : Str} {t : Toml} {m : List (Str × Toml)}
    (hl : TomlDocumentText S (a ++ .entry p k t :: b) s) (hp : S.ops.parse s = some m) (o : Option Toml) :
    ¬ Said a (tomlPlace a [] (lastHeader a ++ p) ++ [.key k]) o := by
  obtain ⟨l', h1, h2⟩ := (C83_read hS).1 hp
  rw [C83_unambiguous hS h1 hl] at h2
  exact entry_once h2 o

-- the second `y` is not for the place of the first
example : ¬ Said (saidStmts.take 7) [.key c!"t", .index 1, .key c!"u", .index 0, .key c!"y"] (some (.int 4)) :=
  C84_once (a := saidStmts.take 7) (b := saidStmts.drop 8) (p := []) (k := c!"y") rfl saidText_stmts saidText_read _

/-- **C84.** Inline tables hold what their entries say, too. -/
theorem C84_inline {S : TomlScalars} {d : Nat} {x : Str} {l : List TomlStmt} {t : Toml} (hl : TomlSyntax S (d + 1) (.pairs l) x)
    (h : TomlSyntax S d (.value t) ('{' :: (x ++ ['}']))) : TomlMeans l t :=
  means_table (pairs_stmts hl) (inline_unique hl h)

/-- The entries of an inline table. -/
def inlineStmts : List TomlStmt := [.entry [c!"q"] c!"r" (.bool true), .entry [c!"q"] c!"s" (.bool false)]

theorem inlineStmts_text {S : TomlScalars} (hS : 2 < S.limit) : TomlSyntax S 1 (.pairs inlineStmts) c!"q.r=true,q.s=false" := by
  have key : ∀ c : Char, TomlBareChar c → TomlKeyText [c!"q", [c]] ['q', '.', c] := fun c hc =>
    .cons (w := []) (x := c!"q") (w' := []) (y := [c]) (fun _ h => nomatch h) (.bare (by decide) (by unfold TomlBareChar; decide)) (fun _ h => nomatch h)
      (.one (w := []) (x := [c]) (w' := []) (fun _ h => nomatch h) (.bare (by simp) (fun _ h => (List.mem_singleton.1 h) ▸ hc)) (fun _ h => nomatch h))
  exact .pairs (p := [c!"q"]) (k := c!"r") (w := []) (w' := []) (key 'r' (by unfold TomlBareChar; decide)) hS (fun _ h => nomatch h) .yes (fun _ h => nomatch h)
    (.pair (p := [c!"q"]) (k := c!"s") (w := []) (w' := []) (key 's' (by unfold TomlBareChar; decide)) hS (fun _ h => nomatch h) .no (fun _ h => nomatch h))

example : TomlMeans inlineStmts (.table [(c!"q", .table [(c!"r", .bool true), (c!"s", .bool false)])]) :=
  C84_inline (S := dayScalars) (d := 0) (inlineStmts_text (by decide))
    (.table (by decide) (inlineStmts_text (by decide)) (by with_unfolding_all rfl))

/-- **C85.** A text by the grammar is read exactly if its statements fit together: entries are new;
keys in parts lead through tables without headers and end in tables made by such keys; a table has one
header, and none if it was made by keys; and a path with tables in an array stays one. -/
theorem C85_fits {S : TomlScalars} (hS : S.date [] = none) {s : Str} {l : List TomlStmt} (hl : TomlDocumentText S l s) :
    (S.ops.parse s).isSome ↔ TomlSketch.start.FitsAll l := by
  rw [← fitsAll_iff fitted_start]
  constructor
  · intro h
    obtain ⟨m, hp⟩ := Option.isSome_iff_exists.1 h
    obtain ⟨l', h1, h2⟩ := (C83_read hS).1 hp
    rw [C83_unambiguous hS h1 hl, tomlInlineTable, Option.map_eq_some_iff] at h2
    obtain ⟨T, h2, _⟩ := h2
    exact Option.isSome_iff_exists.2 ⟨T, h2⟩
  · intro h
    obtain ⟨T, ha⟩ := Option.isSome_iff_exists.1 h
    have hk := applyAll_isTable l [] ha trivial
    cases T with
    | table i d I => exact Option.isSome_iff_exists.2 ⟨_, (C83_read hS).2 ⟨l, hl, by rw [tomlInlineTable]; rw [show TomlStmt.applyAll [] _ l = _ from ha]; rfl⟩⟩
    | value v => exact absurd hk id
    | tables l => exact absurd hk id

example : TomlSketch.start.FitsAll saidStmts := (C85_fits rfl saidText_stmts).1 (by rw [saidText_read]; rfl)

-- the second header is for a table that is there through keys
example : ¬ TomlSketch.start.FitsAll [.table [c!"a"], .entry [c!"b"] c!"c" (.int 1), .table [c!"a", c!"b"]] :=
  fun h => absurd ((C85_fits rfl (s := c!"[a]\nb.c=1\n[a.b]") ((tomlStmts_iff (S := dayScalars) rfl).1 (by with_unfolding_all rfl))).2 h) (by decide +kernel)

/-- **C85.** The texts that are read. -/
theorem C85_read {S : TomlScalars} (hS : S.date [] = none) {s : Str} :
    (S.ops.parse s).isSome ↔ ∃ l, TomlDocumentText S l s ∧ TomlSketch.start.FitsAll l := by
  constructor
  · intro h
    obtain ⟨m, hp⟩ := Option.isSome_iff_exists.1 h
    obtain ⟨l, hl, _⟩ := (C83_read hS).1 hp
    exact ⟨l, hl, (C85_fits hS hl).1 h⟩
  · rintro ⟨l, hl, hf⟩
    exact (C85_fits hS hl).2 hf

example : ∃ l, TomlDocumentText dayScalars l grammarText ∧ TomlSketch.start.FitsAll l := (C85_read rfl).1 (by rw [grammarText_read]; rfl)

/-- **C85.** The same for the entries of an inline table. -/
theorem C85_inline {S : TomlScalars} {d : Nat} {x : Str} {l : List TomlStmt} (hd : d + 1 < S.limit) (hl : TomlSyntax S (d + 1) (.pairs l) x) :
    (∃ t, TomlSyntax S d (.value t) ('{' :: (x ++ ['}']))) ↔ TomlSketch.start.FitsAll l := by
  rw [← fitsAll_iff fitted_start]
  constructor
  · rintro ⟨t, h⟩
    have h1 := inline_unique hl h
    rw [tomlInlineTable, Option.map_eq_some_iff] at h1
    obtain ⟨T, h1, _⟩ := h1
    exact Option.isSome_iff_exists.2 ⟨T, h1⟩
  · intro h
    obtain ⟨T, ha⟩ := Option.isSome_iff_exists.1 h
    exact ⟨T.toml, .table hd hl (by rw [tomlInlineTable]; rw [show TomlStmt.applyAll [] _ l = _ from ha]; rfl)⟩

example : TomlSketch.start.FitsAll inlineStmts :=
  (C85_inline (S := dayScalars) (d := 0) (by decide) (inlineStmts_text (by decide))).1
    ⟨_, .table (by decide) (inlineStmts_text (by decide)) (by with_unfolding_all rfl)⟩

end Rops.Props
