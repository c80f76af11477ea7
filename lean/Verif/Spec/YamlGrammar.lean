import Verif.Model.YamlScalars
import Verif.Spec.TomlGrammar
import Verif.Spec.YamlScalars
/-!
# Specification: the texts of YAML documents that are read

The block part of YAML 1.1 as a grammar of lines. A node owns its lines, together with the blank lines and comments around it; which
node owns a line follows from the columns. Left out are collections within brackets that go over several lines, that have items with
keys, keys that are collections or values that are missing, and plain scalars with question marks within them; tags, anchors, folded scalars, scalars
of several lines other than literal ones, literal ones that begin with an empty line and do not say their column, directives, the mark
at the end of a document, and tabs.
-/

namespace Rops.Spec

/-- Spaces. -/
def Gap (g : Str) : Prop := ∀ c ∈ g, c = ' '

/-- A line with nothing but spaces and possibly a comment. -/
def Hollow (l : Str) : Prop := ∃ g, Gap g ∧ (l = g ∨ ∃ c, l = g ++ '#' :: c)

/-- The end of a line after a scalar: nothing but spaces and possibly a comment, the latter apart from the scalar. -/
def Tail (t : Str) : Prop := ∃ g, Gap g ∧ (t = g ∨ g ≠ [] ∧ ∃ c, t = g ++ '#' :: c)

/-- A line at a column: as many spaces before a text. -/
def At (m : Nat) (b l : Str) : Prop := ∃ g, Gap g ∧ g.length = m ∧ l = g ++ b

/-- Nothing, or a text that begins with a space. -/
def Parted (t : Str) : Prop := t = [] ∨ ∃ r, t = ' ' :: r

/-- The characters of the texts, other than line breaks. -/
def YamlVisible (c : Char) : Prop := (' ' ≤ c ∧ c ≤ '~') ∨ (0xa0 ≤ c.toNat ∧ c.toNat ∉ [0x2028, 0x2029, 0xfeff, 0xfffe, 0xffff])

/-! ## Scalars on one line -/

/-- The characters that begin something else than a plain scalar, except `-`, `?` and `:`. -/
def yamlOpeners : Str := c!"#,[]{}&*!|>'\"%@`"

/-- A plain scalar. -/
structure BareText (s : Str) : Prop where
  /-- All characters can be seen. -/
  printable : ∀ c ∈ s, YamlVisible c
  /-- It begins a plain scalar. -/
  first : ∃ c r, s = c :: r ∧ c ≠ ' ' ∧ c ∉ yamlOpeners ∧ (c ∈ c!"-?:" → ¬ Parted r)
  /-- It does not end with white space. -/
  last : ∀ a, s ≠ a ++ c!" "
  /-- There is no comment. -/
  comment : ∀ a b, s ≠ a ++ (c!" #" ++ b)
  /-- There is no key. -/
  key : ∀ a b, s = a ++ ':' :: b → ¬ Parted b
  /-- It is not the beginning or the end of a document. -/
  marker : ∀ b, s ≠ c!"---" ++ b ∧ s ≠ c!"..." ++ b

/-- What is between single quotes. -/
inductive SingleText : Str → Str → Prop
  | nil : SingleText [] []
  | quote {q s : Str} : SingleText q s → SingleText ('\'' :: '\'' :: q) ('\'' :: s)
  | char {c : Char} {q s : Str} : c ≠ '\'' → SingleText q s → SingleText (c :: q) (c :: s)

/-- The characters that are escaped by a letter, with the letter. -/
def yamlLetters : List (Char × Nat) :=
  [('0', 0), ('a', 7), ('b', 8), ('t', 9), ('n', 10), ('v', 11), ('f', 12), ('r', 13), ('e', 27), (' ', 32), ('"', 34), ('/', 47),
    ('\\', 92), ('N', 0x85), ('_', 0xa0), ('L', 0x2028), ('P', 0x2029)]

/-- The lengths of the escapes by a number, with their letters. -/
def yamlWidths : List (Char × Nat) := [('x', 2), ('u', 4), ('U', 8)]

/-- What is between double quotes. -/
inductive DoubleText : Str → Str → Prop
  | nil : DoubleText [] []
  | char {c : Char} {q s : Str} : c ≠ '"' → c ≠ '\\' → DoubleText q s → DoubleText (c :: q) (c :: s)
  | letter {e c : Char} {q s : Str} : (e, c.toNat) ∈ yamlLetters → DoubleText q s → DoubleText ('\\' :: e :: q) (c :: s)
  | number {e c : Char} {w : Nat} {ds q s : Str} : (e, w) ∈ yamlWidths → ds.length = w → NumberIn 16 ds c.toNat → DoubleText q s →
    DoubleText ('\\' :: e :: (ds ++ q)) (c :: s)

/-! ## Collections within brackets -/

/-- A plain scalar within brackets. -/
def InnerText (s : Str) : Prop := BareText s ∧ (∀ c ∈ s, c ∉ c!",[]{}?") ∧ ∀ r, s ≠ ':' :: r

/-- A key within brackets with the spaces after it, before its colon, and what comes after the colon. -/
inductive InnerKey : Str → YamlNode → Str → Prop
  | plain {s g t : Str} : InnerText s → Gap g → Parted t → InnerKey (s ++ g) (.plain s) t
  | single {q s g t : Str} : SingleText q s → Gap g → InnerKey ('\'' :: (q ++ '\'' :: g)) (.quoted s) t
  | double {q s g t : Str} : DoubleText q s → Gap g → InnerKey ('"' :: (q ++ '"' :: g)) (.quoted s) t

mutual
/-- A node within brackets. -/
inductive InnerNode : Str → YamlNode → Prop
  | plain {s : Str} : InnerText s → InnerNode s (.plain s)
  | single {q s : Str} : SingleText q s → InnerNode ('\'' :: (q ++ c!"'")) (.quoted s)
  | double {q s : Str} : DoubleText q s → InnerNode ('"' :: (q ++ c!"\"")) (.quoted s)
  | seq {s : Str} {l : List YamlNode} : InnerItems s l → InnerNode ('[' :: s) (.seq l)
  | map {s : Str} {l : List (YamlNode × YamlNode)} : InnerPairs s l → InnerNode ('{' :: s) (.map l)
/-- The items of a sequence and its bracket. A comma may be last. -/
inductive InnerItems : Str → List YamlNode → Prop
  | none {g : Str} : Gap g → InnerItems (g ++ c!"]") []
  | last {g s g' : Str} {v : YamlNode} : Gap g → InnerNode s v → Gap g' → InnerItems (g ++ (s ++ (g' ++ c!"]"))) [v]
  | more {g s g' r : Str} {v : YamlNode} {l : List YamlNode} : Gap g → InnerNode s v → Gap g' → InnerItems r l →
    InnerItems (g ++ (s ++ (g' ++ ',' :: r))) (v :: l)
/-- The entries of a mapping and its brace. A comma may be last. -/
inductive InnerPairs : Str → List (YamlNode × YamlNode) → Prop
  | none {g : Str} : Gap g → InnerPairs (g ++ c!"}") []
  | last {g b g1 s g2 : Str} {k v : YamlNode} : Gap g → InnerKey b k (g1 ++ (s ++ (g2 ++ c!"}"))) → b.length ≤ 1024 → Gap g1 →
    InnerNode s v → Gap g2 → InnerPairs (g ++ (b ++ ':' :: (g1 ++ (s ++ (g2 ++ c!"}"))))) [(k, v)]
  | more {g b g1 s g2 r : Str} {k v : YamlNode} {l : List (YamlNode × YamlNode)} : Gap g → InnerKey b k (g1 ++ (s ++ (g2 ++ ',' :: r))) →
    b.length ≤ 1024 → Gap g1 → InnerNode s v → Gap g2 → InnerPairs r l →
    InnerPairs (g ++ (b ++ ':' :: (g1 ++ (s ++ (g2 ++ ',' :: r))))) ((k, v) :: l)
end

/-- What does not depend on the lines after it. -/
inductive FlowText : Str → YamlNode → Prop
  | plain {s : Str} : BareText s → FlowText s (.plain s)
  | single {q s : Str} : SingleText q s → FlowText ('\'' :: (q ++ c!"'")) (.quoted s)
  | double {q s : Str} : DoubleText q s → FlowText ('"' :: (q ++ c!"\"")) (.quoted s)
  | seq {s : Str} {l : List YamlNode} : InnerItems s l → FlowText ('[' :: s) (.seq l)
  | map {s : Str} {l : List (YamlNode × YamlNode)} : InnerPairs s l → FlowText ('{' :: s) (.map l)

/-! ## Literal scalars -/

/-- What happens to the line breaks at the end of a literal scalar. -/
inductive Chomp where
  | clip
  | strip
  | keep

/-- The sign for it. -/
def Chomp.sign : Chomp → Str
  | .clip => []
  | .strip => c!"-"
  | .keep => c!"+"

/-- How far a literal scalar is indented, relative to what it is in. -/
inductive HintText : Option Nat → Str → Prop
  | none : HintText none []
  | some {c : Char} {d : Nat} : HexDigit c d → 1 ≤ d → d ≤ 9 → HintText (some d) [c]

/-- The header of a literal scalar, after its first character. -/
def HeaderText (ch : Chomp) (hint : Option Nat) (h : Str) : Prop := ∃ x, HintText hint x ∧ (h = x ++ ch.sign ∨ h = ch.sign ++ x)

/-- A line of a literal scalar at a column, and what it contributes. -/
def LiteralLine (k : Nat) (l c : Str) : Prop := At k c l ∨ (Gap l ∧ l.length < k ∧ c = [])

/-- The lines of a literal scalar at a column, and what they contribute. -/
inductive LiteralLines (k : Nat) : List Str → List Str → Prop
  | nil : LiteralLines k [] []
  | cons {l c : Str} {ls cs : List Str} : LiteralLine k l c → LiteralLines k ls cs → LiteralLines k (l :: ls) (c :: cs)

/-- The text of the lines of a literal scalar: at its end, empty lines are dropped, and the line break, unless told otherwise. -/
def LiteralText (ch : Chomp) (lines : List Str) (s : Str) : Prop :=
  ∃ a e, lines = a ++ e ∧ (∀ l ∈ e, l = []) ∧ (∀ b, a ≠ b ++ [[]]) ∧
    match ch with
    | .keep => s = (lines.map (· ++ c!"\n")).flatten
    | .clip => s = (a.map (· ++ c!"\n")).flatten
    | .strip => (a = [] ∧ s = []) ∨ (a ≠ [] ∧ s ++ c!"\n" = (a.map (· ++ c!"\n")).flatten)

/-- The column of a literal scalar in something that is in columns from `n` on: told, or that of the first line. -/
def LiteralColumn (n : Nat) (hint : Option Nat) (lines : List Str) (k : Nat) : Prop :=
  match hint with
  | some d => k = n - 1 + d
  | none => n ≤ k ∧ ∃ c r b, lines.head? = some b ∧ At k (c :: r) b ∧ c ≠ ' '

/-- No line that could belong to a literal scalar at a column. -/
def LiteralEnd (k : Nat) (lines : List Str) : Prop := ∀ l, lines.head? = some l → ∃ m c r, m < k ∧ At m (c :: r) l ∧ c ≠ ' '

/-- What stands in columns from `n` on, beginning with a text on a line and going on with the lines after it, other than a sequence of
items or a mapping of entries. -/
inductive ScalarText (n : Nat) : Str → List Str → YamlNode → Prop
  | flow {s t : Str} {own : List Str} {v : YamlNode} : FlowText s v → Tail t → (∀ l ∈ own, Hollow l) → ScalarText n (s ++ t) own v
  | literal {ch : Chomp} {hint : Option Nat} {h t s : Str} {k : Nat} {own lines after : List Str} : HeaderText ch hint h → Tail t →
    LiteralColumn n hint own k → LiteralLines k own lines → LiteralText ch lines s → (∀ l ∈ after, Hollow l) →
    LiteralEnd k after → ScalarText n ('|' :: (h ++ t)) (own ++ after) (.quoted s)

/-! ## Blocks -/

/-- A key of any length with its colon, and what comes after them on the line. -/
inductive KeyForm : Str → YamlNode → Str → Prop
  | plain {s g t : Str} : BareText s → Gap g → Parted t → KeyForm (s ++ (g ++ ':' :: t)) (.plain s) t
  | single {q s g t : Str} : SingleText q s → Gap g → Parted t → KeyForm ('\'' :: (q ++ '\'' :: (g ++ ':' :: t))) (.quoted s) t
  | double {q s g t : Str} : DoubleText q s → Gap g → Parted t → KeyForm ('"' :: (q ++ '"' :: (g ++ ':' :: t))) (.quoted s) t

/-- A key with its colon, and what comes after them on the line: the colon is not more than 1024 characters away. -/
def KeyText (b : Str) (k : YamlNode) (t : Str) : Prop := KeyForm b k t ∧ ∃ a, b = a ++ ':' :: t ∧ a.length ≤ 1024

mutual
/-- A node in columns from `n` on. -/
inductive NodeText : Nat → List Str → YamlNode → Prop
  | empty {n : Nat} {own : List Str} : (∀ l ∈ own, Hollow l) → NodeText n own (.plain [])
  | scalar {n k : Nat} {l b : Str} {before own : List Str} {v : YamlNode} : (∀ l ∈ before, Hollow l) → n ≤ k → At k b l →
    ScalarText n b own v → NodeText n (before ++ l :: own) v
  | seq {n m : Nat} {before own : List Str} {l : List YamlNode} : (∀ l ∈ before, Hollow l) → n ≤ m → ItemsText m own l →
    NodeText n (before ++ own) (.seq l)
  | map {n m : Nat} {before own : List Str} {l : List (YamlNode × YamlNode)} : (∀ l ∈ before, Hollow l) → n ≤ m → EntriesText m own l →
    NodeText n (before ++ own) (.map l)
/-- The items, at least one, of a sequence at a column. What comes after the dash is read as if it was at its place on a line of its
own. -/
inductive ItemsText : Nat → List Str → List YamlNode → Prop
  | one {m : Nat} {t l l' : Str} {own : List Str} {v : YamlNode} : At m ('-' :: t) l → Parted t → At (m + 1) t l' →
    NodeText (m + 1) (l' :: own) v → ItemsText m (l :: own) [v]
  | more {m : Nat} {t l l' : Str} {own rest : List Str} {v : YamlNode} {r : List YamlNode} : At m ('-' :: t) l → Parted t →
    At (m + 1) t l' → NodeText (m + 1) (l' :: own) v → ItemsText m rest r → ItemsText m (l :: (own ++ rest)) (v :: r)
/-- The entries, at least one, of a mapping at a column. -/
inductive EntriesText : Nat → List Str → List (YamlNode × YamlNode) → Prop
  | one {m : Nat} {own : List Str} {k v : YamlNode} : EntryText m own k v → EntriesText m own [(k, v)]
  | more {m : Nat} {own rest : List Str} {k v : YamlNode} {r : List (YamlNode × YamlNode)} : EntryText m own k v →
    EntriesText m rest r → EntriesText m (own ++ rest) ((k, v) :: r)
/-- A key of a mapping at a column, with its value: on the line of the key, on further lines, or as a sequence whose items are at the column
of the mapping. Any node can be a key after a question mark; its value is after a colon, or is missing. -/
inductive EntryText : Nat → List Str → YamlNode → YamlNode → Prop
  | line {m : Nat} {b t g u l : Str} {own : List Str} {k v : YamlNode} : At m b l → KeyText b k t → t = g ++ u → Gap g →
    ScalarText (m + 1) u own v → EntryText m (l :: own) k v
  | block {m : Nat} {b t l : Str} {own : List Str} {k v : YamlNode} : At m b l → KeyText b k t → Tail t → NodeText (m + 1) own v →
    EntryText m (l :: own) k v
  | items {m : Nat} {b t l : Str} {before own : List Str} {k : YamlNode} {v : List YamlNode} : At m b l → KeyText b k t → Tail t →
    (∀ l ∈ before, Hollow l) → ItemsText m own v → EntryText m (l :: (before ++ own)) k (.seq v)
  | lone {m : Nat} {t l l' : Str} {own : List Str} {k : YamlNode} : At m ('?' :: t) l → Parted t → At (m + 1) t l' →
    NodeText (m + 1) (l' :: own) k → EntryText m (l :: own) k (.plain [])
  | pair {m : Nat} {t l l' u i i' : Str} {own own' : List Str} {k v : YamlNode} : At m ('?' :: t) l → Parted t → At (m + 1) t l' →
    NodeText (m + 1) (l' :: own) k → At m (':' :: u) i → Parted u → At (m + 1) u i' → NodeText (m + 1) (i' :: own') v →
    EntryText m (l :: (own ++ i :: own')) k v
end

/-! ## Documents -/

/-- A text with the line breaks of any system, and with those of Unix. -/
inductive BreaksText : Str → Str → Prop
  | nil : BreaksText [] []
  | char {c : Char} {s t : Str} : c ≠ '\r' → BreaksText s t → BreaksText (c :: s) (c :: t)
  | both {s t : Str} : BreaksText s t → BreaksText ('\r' :: '\n' :: s) ('\n' :: t)
  | alone {s t : Str} : (∀ r, s ≠ '\n' :: r) → BreaksText s t → BreaksText ('\r' :: s) ('\n' :: t)

/-- The lines of a text. -/
def LinesText (s : Str) (ls : List Str) : Prop := (∀ l ∈ ls, '\n' ∉ l) ∧ s = (ls.map (· ++ c!"\n")).flatten

/-- The lines of a document: all, or those after a line that says that a document begins. -/
def BodyText (ls own : List Str) : Prop :=
  ls = own ∨ ∃ before t, (∀ l ∈ before, Hollow l) ∧ Tail t ∧ ls = before ++ (c!"---" ++ t) :: own

/-- Not more than so many levels of collections. (Nodes with tags and those whose style is open are never read.) -/
inductive Shallow : Nat → YamlNode → Prop
  | plain {n : Nat} {s : Str} : Shallow n (.plain s)
  | quoted {n : Nat} {s : Str} : Shallow n (.quoted s)
  | free {n : Nat} {s : Str} : Shallow n (.free s)
  | tagged {n : Nat} {t : Str} {v : YamlNode} : Shallow n v → Shallow n (.tagged t v)
  | seq {n : Nat} {l : List YamlNode} : (∀ v ∈ l, Shallow n v) → Shallow (n + 1) (.seq l)
  | map {n : Nat} {l : List (YamlNode × YamlNode)} : (∀ e ∈ l, Shallow n e.1) → (∀ e ∈ l, Shallow n e.2) → Shallow (n + 1) (.map l)

/-- Whole lines that are a mapping. -/
def FullText (s : Str) (l : List (YamlNode × YamlNode)) : Prop :=
  ∃ ls own, LinesText s ls ∧ BodyText ls own ∧ NodeText 0 own (.map l) ∧ Shallow 128 (.map l)

/-- A document that is a mapping. The last line may be without its line break if it is not one of a literal scalar: if a comment could be
put there. -/
def DocumentText (s : Str) (l : List (YamlNode × YamlNode)) : Prop :=
  ∃ t, BreaksText s t ∧ (∀ c ∈ t, YamlVisible c ∨ c = '\n') ∧ (FullText t l ∨
    (∃ a c, t = a ++ [c] ∧ c ≠ '\n') ∧ FullText (t ++ c!"\n") l ∧ FullText (t ++ c!" #\n") l)

mutual
/-- The value of a node. The texts that are keys of a mapping differ. -/
inductive NodeValue : YamlNode → Yaml → Prop
  | plain {s : Str} {v : Yaml} : YamlPlainText (some v) s → NodeValue (.plain s) v
  | quoted {s : Str} : NodeValue (.quoted s) (.str s)
  | free {s : Str} {v : Yaml} : YamlPlainText (some v) s → NodeValue (.free s) v
  | tagged {t : Str} {n : YamlNode} {v : Yaml} : NodeValue n v → NodeValue (.tagged t n) (.tagged t v)
  | seq {l : List YamlNode} {r : List Yaml} : ItemValues l r → NodeValue (.seq l) (.seq r)
  | map {l : List (YamlNode × YamlNode)} {r : List (Yaml × Yaml)} : EntryValues l r → NodeValue (.map l) (.map r)
/-- The values of the items of a sequence. -/
inductive ItemValues : List YamlNode → List Yaml → Prop
  | nil : ItemValues [] []
  | cons {n : YamlNode} {v : Yaml} {l : List YamlNode} {r : List Yaml} : NodeValue n v → ItemValues l r → ItemValues (n :: l) (v :: r)
/-- The values of the keys and values of a mapping. -/
inductive EntryValues : List (YamlNode × YamlNode) → List (Yaml × Yaml) → Prop
  | nil : EntryValues [] []
  | cons {k n : YamlNode} {a v : Yaml} {l : List (YamlNode × YamlNode)} {r : List (Yaml × Yaml)} : NodeValue k a → NodeValue n v →
    EntryValues l r → (∀ s, a = .str s → ∀ e ∈ r, e.1 ≠ .str s) → EntryValues ((k, n) :: l) ((a, v) :: r)
end

/-- A text of YAML and the document it is for. -/
def YamlText (s : Str) (d : List (Yaml × Yaml)) : Prop := ∃ l, DocumentText s l ∧ EntryValues l d

end Rops.Spec
