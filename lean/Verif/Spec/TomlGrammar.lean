import Verif.Model.TomlText
import Verif.Spec.JsonText
/-!
# Specification of the syntax of TOML

The grammar of TOML 1.0.0 as relations between what is said and texts that say it.
-/

namespace Rops.Spec

/-- White space within a line. -/
def TomlWs (w : Str) : Prop := ∀ c ∈ w, c = ' ' ∨ c = '\t'

/-- The end of a line. -/
def TomlNl (w : Str) : Prop := w = ['\n'] ∨ w = ['\r', '\n']

/-- A character that is not a control character; the tabulator is none here. -/
def TomlNonControl (c : Char) : Prop := c = '\t' ∨ (32 ≤ c.toNat ∧ c.toNat ≠ 127)

/-- A comment. -/
def TomlRemark (x : Str) : Prop := ∃ t, x = '#' :: t ∧ ∀ c ∈ t, TomlNonControl c

/-- White space and ends of lines. -/
inductive TomlBlank : Str → Prop
  | nil : TomlBlank []
  | ws {c : Char} {x : Str} : c = ' ' ∨ c = '\t' → TomlBlank x → TomlBlank (c :: x)
  | nl {e x : Str} : TomlNl e → TomlBlank x → TomlBlank (e ++ x)

/-- White space, ends of lines, and comments that end with their line. -/
inductive TomlBetween : Str → Prop
  | nil : TomlBetween []
  | ws {c : Char} {x : Str} : c = ' ' ∨ c = '\t' → TomlBetween x → TomlBetween (c :: x)
  | nl {e x : Str} : TomlNl e → TomlBetween x → TomlBetween (e ++ x)
  | remark {t e x : Str} : TomlRemark t → TomlNl e → TomlBetween x → TomlBetween (t ++ (e ++ x))

/-- What may be at the end of a line: white space and a comment. -/
def TomlTail (x : Str) : Prop := ∃ w t, x = w ++ t ∧ TomlWs w ∧ (t = [] ∨ TomlRemark t)

/-! ## Texts -/

/-- A number with digits to a base, the last digit last. -/
inductive NumberIn (base : Nat) : Str → Nat → Prop
  | nil : NumberIn base [] 0
  | snoc {ds : Str} {n d : Nat} {c : Char} : NumberIn base ds n → HexDigit c d → d < base →
    NumberIn base (ds ++ [c]) (n * base + d)

/-- The characters that are escaped by a letter, with the letter. -/
def tomlLetters : List (Char × Nat) :=
  [('"', 34), ('\\', 92), ('b', 8), ('f', 12), ('n', 10), ('r', 13), ('t', 9)]

/-- A character with an escape for it. -/
inductive TomlEscaped : Char → Str → Prop
  | letter {l : Char} {n : Nat} : (l, n) ∈ tomlLetters → TomlEscaped (Char.ofNat n) ['\\', l]
  | four {h : Str} {v : Nat} : NumberIn 16 h v → h.length = 4 → v < 0xD800 ∨ 0xE000 ≤ v →
    TomlEscaped (Char.ofNat v) ('\\' :: 'u' :: h)
  | eight {h : Str} {v : Nat} : NumberIn 16 h v → h.length = 8 → v < 0xD800 ∨ (0xE000 ≤ v ∧ v < 0x110000) →
    TomlEscaped (Char.ofNat v) ('\\' :: 'U' :: h)

/-- What is between double quotes. -/
inductive TomlBasicBody : Str → Str → Prop
  | nil : TomlBasicBody [] []
  | plain {c : Char} {s x : Str} : TomlNonControl c → c ≠ '"' → c ≠ '\\' → TomlBasicBody s x →
    TomlBasicBody (c :: s) (c :: x)
  | escaped {c : Char} {e s x : Str} : TomlEscaped c e → TomlBasicBody s x → TomlBasicBody (c :: s) (e ++ x)

/-- Does not begin with white space or the end of a line. -/
def NotBlank (x : Str) : Prop := ∀ c r, x = c :: r → c ≠ ' ' ∧ c ≠ '\t' ∧ c ≠ '\n' ∧ c ≠ '\r'

/-- What is between three double quotes, after so many double quotes: never three in a row. The end
of a line stands for a line feed; a backslash at the end of a line (but for white space) takes away
all white space and ends of lines after it. -/
inductive TomlLinesBody : Nat → Str → Str → Prop
  | nil {n : Nat} : TomlLinesBody n [] []
  | quote {n : Nat} {s x : Str} : n < 2 → TomlLinesBody (n + 1) s x → TomlLinesBody n ('"' :: s) ('"' :: x)
  | plain {n : Nat} {c : Char} {s x : Str} : TomlNonControl c → c ≠ '"' → c ≠ '\\' → TomlLinesBody 0 s x →
    TomlLinesBody n (c :: s) (c :: x)
  | newline {n : Nat} {e s x : Str} : TomlNl e → TomlLinesBody 0 s x → TomlLinesBody n ('\n' :: s) (e ++ x)
  | escaped {n : Nat} {c : Char} {e s x : Str} : TomlEscaped c e → TomlLinesBody 0 s x → TomlLinesBody n (c :: s) (e ++ x)
  | fold {n : Nat} {w e g s x : Str} : TomlWs w → TomlNl e → TomlBlank g → NotBlank x → TomlLinesBody 0 s x →
    TomlLinesBody n s ('\\' :: (w ++ (e ++ (g ++ x))))

/-- What is between three single quotes, after so many single quotes. -/
inductive TomlRawBody : Nat → Str → Str → Prop
  | nil {n : Nat} : TomlRawBody n [] []
  | quote {n : Nat} {s x : Str} : n < 2 → TomlRawBody (n + 1) s x → TomlRawBody n ('\'' :: s) ('\'' :: x)
  | plain {n : Nat} {c : Char} {s x : Str} : TomlNonControl c → c ≠ '\'' → TomlRawBody 0 s x → TomlRawBody n (c :: s) (c :: x)
  | newline {n : Nat} {e s x : Str} : TomlNl e → TomlRawBody 0 s x → TomlRawBody n ('\n' :: s) (e ++ x)

/-- The second text after three quotes: one end of a line may be before it, and is if the text
begins with one. -/
def AfterOpening (y x : Str) : Prop :=
  (y = x ∧ ∀ e r, TomlNl e → x ≠ e ++ r) ∨ ∃ e, TomlNl e ∧ y = e ++ x

/-- A text within double quotes. -/
def TomlBasicText (s x : Str) : Prop := ∃ y, x = '"' :: (y ++ ['"']) ∧ TomlBasicBody s y

/-- A text within single quotes: as it is. -/
def TomlLiteralText (s x : Str) : Prop := x = '\'' :: (s ++ ['\'']) ∧ ∀ c ∈ s, TomlNonControl c ∧ c ≠ '\''

/-- A text within quotes. -/
inductive TomlQuoted : Str → Str → Prop
  | basic {s x : Str} : TomlBasicText s x → TomlQuoted s x
  | lines {s x y : Str} : TomlLinesBody 0 s x → AfterOpening y x →
    TomlQuoted s ('"' :: '"' :: '"' :: (y ++ ['"', '"', '"']))
  | literal {s x : Str} : TomlLiteralText s x → TomlQuoted s x
  | raw {s x y : Str} : TomlRawBody 0 s x → AfterOpening y x →
    TomlQuoted s ('\'' :: '\'' :: '\'' :: (y ++ ['\'', '\'', '\'']))

/-! ## Keys -/

/-- The characters of keys without quotes. -/
def TomlBareChar (c : Char) : Prop :=
  ('a' ≤ c ∧ c ≤ 'z') ∨ ('A' ≤ c ∧ c ≤ 'Z') ∨ ('0' ≤ c ∧ c ≤ '9') ∨ c = '_' ∨ c = '-'

/-- One part of a key. -/
inductive TomlPart : Str → Str → Prop
  | bare {k : Str} : k ≠ [] → (∀ c ∈ k, TomlBareChar c) → TomlPart k k
  | basic {k x : Str} : TomlBasicText k x → TomlPart k x
  | literal {k x : Str} : TomlLiteralText k x → TomlPart k x

/-- A key: parts with dots between them, and white space around each. -/
inductive TomlKeyText : List Str → Str → Prop
  | one {k w x w' : Str} : TomlWs w → TomlPart k x → TomlWs w' → TomlKeyText [k] (w ++ (x ++ w'))
  | cons {k w x w' y : Str} {p : List Str} : TomlWs w → TomlPart k x → TomlWs w' → TomlKeyText p y →
    TomlKeyText (k :: p) (w ++ (x ++ (w' ++ '.' :: y)))

/-! ## Numbers -/

/-- Digits, and a text of them with single underscores between digits. -/
inductive Grouped (ok : Char → Prop) : Str → Str → Prop
  | one {c : Char} : ok c → Grouped ok [c] [c]
  | cons {c : Char} {ds x : Str} : ok c → Grouped ok ds x → Grouped ok (c :: ds) (c :: x)
  | under {c : Char} {ds x : Str} : ok c → Grouped ok ds x → Grouped ok (c :: ds) (c :: '_' :: x)

/-- A digit to a base. -/
def DigitIn (base : Nat) (c : Char) : Prop := ∃ d, HexDigit c d ∧ d < base

/-- Decimal digits without zeros before others. -/
def TomlDec (ds x : Str) : Prop := Grouped (DigitIn 10) ds x ∧ (ds = ['0'] ∨ ds.head? ≠ some '0')

/-- An integer: decimal with a sign or without one, or to the base 16, 8 or 2. -/
inductive TomlIntText : Int → Str → Prop
  | plain {sg ds x : Str} {n : Nat} : sg = [] ∨ sg = ['+'] → TomlDec ds x → NumberIn 10 ds n → TomlIntText n (sg ++ x)
  | minus {ds x : Str} {n : Nat} : TomlDec ds x → NumberIn 10 ds n → TomlIntText (-n) ('-' :: x)
  | base {l : Char} {base n : Nat} {ds x : Str} : (l, base) ∈ [('x', 16), ('o', 8), ('b', 2)] →
    Grouped (DigitIn base) ds x → NumberIn base ds n → TomlIntText n ('0' :: l :: x)

/-- A sign with what is kept of it. -/
def TomlSignText (kept sg : Str) : Prop := (kept = [] ∧ (sg = [] ∨ sg = ['+'])) ∨ (kept = ['-'] ∧ sg = ['-'])

/-- A fraction without its underscores, possibly none. -/
def TomlFracText (f x : Str) : Prop :=
  (f = [] ∧ x = []) ∨ ∃ ds y, f = '.' :: ds ∧ x = '.' :: y ∧ Grouped (DigitIn 10) ds y

/-- An exponent without its underscores, possibly none. -/
def TomlExpText (e x : Str) : Prop :=
  (e = [] ∧ x = []) ∨ ∃ l kept sg ds y, (l = 'e' ∨ l = 'E') ∧ TomlSignText kept sg ∧ Grouped (DigitIn 10) ds y ∧
    e = 'e' :: (kept ++ ds) ∧ x = l :: (sg ++ y)

/-- A float: a number with a fraction or an exponent, infinity, or not a number. -/
inductive TomlFloatText (S : TomlScalars) : Str → Str → Prop
  | number {kept sg ds x f y e z t : Str} : TomlSignText kept sg → TomlDec ds x → TomlFracText f y → TomlExpText e z →
    (y ≠ [] ∨ z ≠ []) → S.float (kept ++ (ds ++ (f ++ e))) = some t → TomlFloatText S t (sg ++ (x ++ (y ++ z)))
  | inf {kept sg : Str} : TomlSignText kept sg → TomlFloatText S (kept ++ c!"inf") (sg ++ c!"inf")
  | nan {kept sg : Str} : TomlSignText kept sg → TomlFloatText S c!"NaN" (sg ++ c!"nan")

/-- The characters that numbers and dates are made of. -/
def TomlWordChar (c : Char) : Prop :=
  ('a' ≤ c ∧ c ≤ 'z') ∨ ('A' ≤ c ∧ c ≤ 'Z') ∨ ('0' ≤ c ∧ c ≤ '9') ∨ c ∈ ['_', '-', '+', '.', ':']

/-- A date: of these characters, but one space may be between ten of them and a digit. -/
def TomlDateShape (x : Str) : Prop :=
  (x ≠ [] ∧ ∀ c ∈ x, TomlWordChar c) ∨
  ∃ a y z, x = a ++ ' ' :: y ∧ a.length = 10 ∧ (∀ c ∈ a, TomlWordChar c) ∧ a[4]? = some '-' ∧ a[7]? = some '-' ∧
    (∀ c ∈ y, TomlWordChar c) ∧ y.head? = some z ∧ '0' ≤ z ∧ z ≤ '9'

/-- A date is what is read as one and is neither a number nor a truth value. -/
structure TomlDateText (S : TomlScalars) (d x : Str) : Prop where
  read : S.date x = some d
  shape : TomlDateShape x
  noInt : ∀ i : Int64, ¬ TomlIntText i.toInt x
  noFloat : ∀ f, ¬ TomlFloatText S f x
  noBool : x ≠ c!"true" ∧ x ≠ c!"false"

/-! ## Values and documents -/

/-- A value, elements of an array, or entries of an inline table. -/
inductive TomlNode where
  | value (v : Toml)
  | elems (l : List Toml)
  | pairs (l : List TomlStmt)

/-- What is said with a text for it, within so many arrays and inline tables. -/
inductive TomlSyntax (S : TomlScalars) : Nat → TomlNode → Str → Prop
  | text {d : Nat} {s x : Str} : TomlQuoted s x → TomlSyntax S d (.value (.str s)) x
  | yes {d : Nat} : TomlSyntax S d (.value (.bool true)) c!"true"
  | no {d : Nat} : TomlSyntax S d (.value (.bool false)) c!"false"
  | int {d : Nat} {i : Int64} {x : Str} : TomlIntText i.toInt x → TomlSyntax S d (.value (.int i)) x
  | float {d : Nat} {f x : Str} : TomlFloatText S f x → TomlSyntax S d (.value (.float f)) x
  | date {d : Nat} {t x : Str} : TomlDateText S t x → TomlSyntax S d (.value (.datetime t)) x
  | array {d : Nat} {l : List Toml} {x : Str} : d + 1 < S.limit → TomlSyntax S (d + 1) (.elems l) x →
    TomlSyntax S d (.value (.array l)) ('[' :: (x ++ [']']))
  | empty {d : Nat} {w : Str} : d + 1 < S.limit → TomlWs w → TomlSyntax S d (.value (.table [])) ('{' :: (w ++ ['}']))
  | table {d : Nat} {l : List TomlStmt} {t : Toml} {x : Str} : d + 1 < S.limit → TomlSyntax S (d + 1) (.pairs l) x →
    tomlInlineTable l = some t → TomlSyntax S d (.value t) ('{' :: (x ++ ['}']))
  | none {d : Nat} {g : Str} : TomlBetween g → TomlSyntax S d (.elems []) g
  | last {d : Nat} {t : Toml} {g x g' : Str} : TomlBetween g → TomlSyntax S d (.value t) x → TomlBetween g' →
    TomlSyntax S d (.elems [t]) (g ++ (x ++ g'))
  | more {d : Nat} {t : Toml} {l : List Toml} {g x g' y : Str} : TomlBetween g → TomlSyntax S d (.value t) x →
    TomlBetween g' → TomlSyntax S d (.elems l) y → TomlSyntax S d (.elems (t :: l)) (g ++ (x ++ (g' ++ ',' :: y)))
  | pair {d : Nat} {p : List Str} {k y w x w' : Str} {t : Toml} : TomlKeyText (p ++ [k]) y → p.length + 1 < S.limit →
    TomlWs w → TomlSyntax S d (.value t) x → TomlWs w' →
    TomlSyntax S d (.pairs [.entry p k t]) (y ++ '=' :: (w ++ (x ++ w')))
  | pairs {d : Nat} {p : List Str} {k y w x w' z : Str} {t : Toml} {l : List TomlStmt} : TomlKeyText (p ++ [k]) y →
    p.length + 1 < S.limit → TomlWs w → TomlSyntax S d (.value t) x → TomlWs w' → TomlSyntax S d (.pairs l) z →
    TomlSyntax S d (.pairs (.entry p k t :: l)) (y ++ '=' :: (w ++ (x ++ (w' ++ ',' :: z))))

/-- A statement: an entry, or a header. -/
inductive TomlStmtText (S : TomlScalars) : TomlStmt → Str → Prop
  | entry {p : List Str} {k y w x : Str} {t : Toml} : TomlKeyText (p ++ [k]) y → p.length + 1 < S.limit → TomlWs w →
    TomlSyntax S 0 (.value t) x → TomlStmtText S (.entry p k t) (y ++ '=' :: (w ++ x))
  | table {p : List Str} {x : Str} : TomlKeyText p x → p.length < S.limit →
    TomlStmtText S (.table p) ('[' :: (x ++ [']']))
  | element {p : List Str} {x : Str} : TomlKeyText p x → p.length < S.limit →
    TomlStmtText S (.element p) ('[' :: '[' :: (x ++ [']', ']']))

/-- The lines of a document: on each is a statement or none. -/
inductive TomlLinesText (S : TomlScalars) : List TomlStmt → Str → Prop
  | last {x : Str} : TomlTail x → TomlLinesText S [] x
  | blank {l : List TomlStmt} {x e y : Str} : TomlTail x → TomlNl e → TomlLinesText S l y → TomlLinesText S l (x ++ (e ++ y))
  | lastStmt {s : TomlStmt} {w x z : Str} : TomlWs w → TomlStmtText S s x → TomlTail z → TomlLinesText S [s] (w ++ (x ++ z))
  | stmt {s : TomlStmt} {l : List TomlStmt} {w x z e y : Str} : TomlWs w → TomlStmtText S s x → TomlTail z → TomlNl e →
    TomlLinesText S l y → TomlLinesText S (s :: l) (w ++ (x ++ (z ++ (e ++ y))))

/-- A document: its lines, after a mark of their byte order or without one. -/
def TomlDocumentText (S : TomlScalars) (l : List TomlStmt) (s : Str) : Prop :=
  ∃ x, TomlLinesText S l x ∧ (s = Char.ofNat 0xFEFF :: x ∨ (s = x ∧ s.head? ≠ some (Char.ofNat 0xFEFF)))

end Rops.Spec
