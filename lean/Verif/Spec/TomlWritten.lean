import Verif.Spec.JsonShown
import Verif.Spec.TomlGrammar
/-!
# Specification: how TOML documents are written

Which of the texts of a document (`Spec.TomlDocumentText`) is the one that is written.
-/

namespace Rops.Spec

/-! ## Texts -/

/-- A character between double quotes, one or three: as it is unless it must be escaped, and then by its letter, or by its number if it has no letter.
Between three quotes line breaks are as they are. -/
inductive TomlCharShown (lines : Bool) : Char → Str → Prop
  | self {c : Char} : 32 ≤ c.toNat → c.toNat ≠ 127 → c ≠ '"' → c ≠ '\\' → TomlCharShown lines c [c]
  | newline : lines = true → TomlCharShown lines '\n' ['\n']
  | letter {c e : Char} : (e, c.toNat) ∈ shownLetters → ¬ (lines = true ∧ c = '\n') → TomlCharShown lines c ['\\', e]
  | number {c : Char} {h : Str} : c.toNat < 32 ∨ c.toNat = 127 → (∀ e, (e, c.toNat) ∉ shownLetters) → Hex4 h c.toNat →
    (∀ d ∈ h, ¬ ('a' ≤ d ∧ d ≤ 'f')) → TomlCharShown lines c ('\\' :: 'u' :: h)

/-- The characters of a text. -/
inductive TomlCharsShown (lines : Bool) : Str → Str → Prop
  | nil : TomlCharsShown lines [] []
  | cons {c : Char} {s x y : Str} : TomlCharShown lines c x → TomlCharsShown lines s y → TomlCharsShown lines (c :: s) (x ++ y)

/-- A text that is better in single quotes: it has something to be escaped, but no control characters and no three single quotes. -/
def BetterRaw (s : Str) : Prop :=
  ('"' ∈ s ∨ '\\' ∈ s) ∧ (∀ c ∈ s, c = '\t' ∨ c = '\n' ∨ (32 ≤ c.toNat ∧ c.toNat ≠ 127)) ∧ ∀ a b, s ≠ a ++ (c!"'''" ++ b)

/-- A text: in double quotes or, if that is better, in single quotes; in three of them if it has line breaks, which are after another line break then,
or if it is in single quotes and has some. -/
inductive TomlStringShown (s : Str) : Str → Prop
  | basic {y : Str} : '\n' ∉ s → ¬ BetterRaw s → TomlCharsShown false s y → TomlStringShown s (c!"\"" ++ (y ++ c!"\""))
  | raw : '\n' ∉ s → BetterRaw s → '\'' ∉ s → TomlStringShown s (c!"'" ++ (s ++ c!"'"))
  | quotes : '\n' ∉ s → BetterRaw s → '\'' ∈ s → TomlStringShown s (c!"'''" ++ (s ++ c!"'''"))
  | lines {y : Str} : '\n' ∈ s → ¬ BetterRaw s → TomlCharsShown true s y → TomlStringShown s (c!"\"\"\"\n" ++ (y ++ c!"\"\"\""))
  | rawLines : '\n' ∈ s → BetterRaw s → TomlStringShown s (c!"'''\n" ++ (s ++ c!"'''"))

/-- A key or a part of one: without quotes if possible. -/
inductive TomlKeyShown (k : Str) : Str → Prop
  | bare : k ≠ [] → (∀ c ∈ k, TomlBareChar c) → TomlKeyShown k k
  | quoted {y : Str} : ¬ (k ≠ [] ∧ ∀ c ∈ k, TomlBareChar c) → TomlCharsShown false k y → TomlKeyShown k (c!"\"" ++ (y ++ c!"\""))

/-! ## Values -/

/-- A float, given the text that Rust prints for it: always with a point. -/
inductive TomlFloatShown (s : Str) : Str → Prop
  | nan : s = c!"NaN" → TomlFloatShown s c!"nan"
  | self : s ≠ c!"NaN" → (s = c!"inf" ∨ s = c!"-inf" ∨ '.' ∈ s) → TomlFloatShown s s
  | point : s ≠ c!"NaN" → ¬ (s = c!"inf" ∨ s = c!"-inf" ∨ '.' ∈ s) → TomlFloatShown s (s ++ c!".0")

/-- An integer. -/
inductive TomlIntShown (n : Int64) : Str → Prop
  | natural {ds : Str} {k : Nat} : JsonInt ds k → n.toInt = k → TomlIntShown n ds
  | negative {ds : Str} {k : Nat} : JsonInt ds k → k ≠ 0 → n.toInt = -(k : Int) → TomlIntShown n ('-' :: ds)

mutual
/-- A value after its key: arrays of more than one element have a line for each, indented by four spaces, with a comma after each; inline tables are
on one line, with spaces within their braces. -/
def TomlValueShown : Toml → Str → Prop
  | .str s, x => TomlStringShown s x
  | .int n, x => TomlIntShown n x
  | .float s, x => TomlFloatShown s x
  | .bool b, x => x = if b then c!"true" else c!"false"
  | .datetime s, x => x = s
  | .array l, x => ∃ xs, TomlItemsShown l xs ∧ ((xs = [] ∧ x = c!"[]") ∨ (∃ y, xs = [y] ∧ x = c!"[" ++ (y ++ c!"]")) ∨
      (2 ≤ xs.length ∧ x = c!"[" ++ (xs.flatMap (fun y => c!"\n    " ++ (y ++ c!",")) ++ c!"\n]")))
  | .table m, x => ∃ xs, TomlFieldsShown m xs ∧ ((xs = [] ∧ x = c!"{}") ∨ (xs ≠ [] ∧ x = c!"{" ++ (commas xs ++ c!" }")))
/-- The elements of an array. -/
def TomlItemsShown : List Toml → List Str → Prop
  | [], xs => xs = []
  | t :: r, xs => ∃ x ys, TomlValueShown t x ∧ TomlItemsShown r ys ∧ xs = x :: ys
/-- The entries of an inline table. -/
def TomlFieldsShown : List (Str × Toml) → List Str → Prop
  | [], xs => xs = []
  | (k, t) :: r, xs => ∃ y x ys, TomlKeyShown k y ∧ TomlValueShown t x ∧ TomlFieldsShown r ys ∧ xs = (c!" " ++ (y ++ (c!" = " ++ x))) :: ys
end

/-! ## Documents -/

/-- A value that has sections of its own: a table, or an array of one or more tables and nothing else. -/
def InSections (t : Toml) : Prop := (∃ m, t = .table m) ∨ ∃ l, t = .array l ∧ l ≠ [] ∧ ∀ u ∈ l, ∃ m, u = .table m

/-- The path in a header. -/
inductive TomlPathShown : List Str → Str → Prop
  | one {k x : Str} : TomlKeyShown k x → TomlPathShown [k] x
  | cons {k x y : Str} {p : List Str} : TomlKeyShown k x → TomlPathShown p y → TomlPathShown (k :: p) (x ++ (c!"." ++ y))

/-- The entries of a table that have no sections, in their order, on lines of their own. -/
inductive TomlEntriesShown : List (Str × Toml) → Str → Prop
  | nil : TomlEntriesShown [] []
  | skip {k : Str} {t : Toml} {r : List (Str × Toml)} {y : Str} : InSections t → TomlEntriesShown r y → TomlEntriesShown ((k, t) :: r) y
  | cons {k : Str} {t : Toml} {r : List (Str × Toml)} {kx x y : Str} : ¬ InSections t → TomlKeyShown k kx → TomlValueShown t x → TomlEntriesShown r y →
    TomlEntriesShown ((k, t) :: r) (kx ++ (c!" = " ++ (x ++ (c!"\n" ++ y))))

mutual
/-- The sections of the entries of a table with this path, in their order: a header with the entries, each. -/
def TomlSectionsShown (p : List Str) : List (Str × Toml) → List Str → Prop
  | [], xs => xs = []
  | (k, t) :: r, xs => ∃ ys zs, TomlSectionShown (p ++ [k]) t ys ∧ TomlSectionsShown p r zs ∧ xs = ys ++ zs
/-- The sections of a value with this path. A table with nothing but sections in it has no header. -/
def TomlSectionShown (p : List Str) : Toml → List Str → Prop
  | .table m, xs => ∃ e ys, TomlEntriesShown m e ∧ TomlSectionsShown p m ys ∧
      (((m ≠ [] ∧ ∀ f ∈ m, InSections f.2) ∧ xs = ys) ∨
        (¬ (m ≠ [] ∧ ∀ f ∈ m, InSections f.2) ∧ ∃ h, TomlPathShown p h ∧ xs = (c!"[" ++ (h ++ (c!"]\n" ++ e))) :: ys))
  | .array l, xs => (InSections (.array l) ∧ TomlElementsShown p l xs) ∨ (¬ InSections (.array l) ∧ xs = [])
  | _, xs => xs = []
/-- The elements of an array of tables, each with a header. -/
def TomlElementsShown (p : List Str) : List Toml → List Str → Prop
  | [], xs => xs = []
  | .table m :: r, xs => ∃ h e ys zs, TomlPathShown p h ∧ TomlEntriesShown m e ∧ TomlSectionsShown p m ys ∧ TomlElementsShown p r zs ∧
      xs = ((c!"[[" ++ (h ++ (c!"]]\n" ++ e))) :: ys) ++ zs
  | _ :: _, _ => False
end

/-- Sections with an empty line between them. -/
def apart : List Str → Str
  | [] => []
  | [x] => x
  | x :: y :: r => x ++ '\n' :: apart (y :: r)

/-- A document: the entries without sections, and the sections. -/
def TomlShown (m : List (Str × Toml)) (s : Str) : Prop :=
  ∃ e xs, TomlEntriesShown m e ∧ TomlSectionsShown [] m xs ∧ s = apart (if e = [] then xs else e :: xs)

end Rops.Spec
