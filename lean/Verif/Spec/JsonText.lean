import Verif.Spec.Content
import Verif.Model.JsonText
import Verif.Spec.Syntax
import Verif.Spec.Tree
/-!
# Specification of the syntax of JSON

The grammar of RFC 8259 as a relation between values and texts.
-/

namespace Rops.Spec

/-- White space. -/
def JsonWs (w : Str) : Prop := ∀ c ∈ w, c = ' ' ∨ c = '\t' ∨ c = '\n' ∨ c = '\r'

/-- A hexadecimal digit with its value. -/
def HexDigit (c : Char) (v : Nat) : Prop :=
  (v < 10 ∧ c = Char.ofNat (48 + v)) ∨ (10 ≤ v ∧ v < 16 ∧ (c = Char.ofNat (55 + v) ∨ c = Char.ofNat (87 + v)))

/-- Four hexadecimal digits with their value. -/
def Hex4 (s : Str) (v : Nat) : Prop :=
  ∃ a b c d w x y z, s = [a, b, c, d] ∧ HexDigit a w ∧ HexDigit b x ∧ HexDigit c y ∧ HexDigit d z ∧
    v = 4096 * w + 256 * x + 16 * y + z

/-- The characters that are escaped by a letter, with the letter. -/
def escapeLetters : List (Char × Nat) :=
  [('"', 34), ('\\', 92), ('/', 47), ('b', 8), ('f', 12), ('n', 10), ('r', 13), ('t', 9)]

/-- One character of a string with the text for it. -/
inductive JsonChar : Char → Str → Prop
  | plain {c : Char} : 32 ≤ c.toNat → c ≠ '"' → c ≠ '\\' → JsonChar c [c]
  | letter {l : Char} {n : Nat} : (l, n) ∈ escapeLetters → JsonChar (Char.ofNat n) ['\\', l]
  | unicode {h : Str} {v : Nat} : Hex4 h v → v < 0xD800 ∨ 0xE000 ≤ v → JsonChar (Char.ofNat v) ('\\' :: 'u' :: h)
  | pair {h l : Str} {v w : Nat} : Hex4 h v → Hex4 l w → 0xD800 ≤ v → v < 0xDC00 → 0xDC00 ≤ w → w < 0xE000 →
    JsonChar (Char.ofNat (0x10000 + 0x400 * (v - 0xD800) + (w - 0xDC00))) ('\\' :: 'u' :: (h ++ '\\' :: 'u' :: l))

/-- The text between the quotes of a string. -/
inductive JsonChars : Str → Str → Prop
  | nil : JsonChars [] []
  | cons {c : Char} {s x y : Str} : JsonChar c x → JsonChars s y → JsonChars (c :: s) (x ++ y)

/-- A string in quotes. -/
def JsonString (s x : Str) : Prop := ∃ y, JsonChars s y ∧ x = '"' :: (y ++ ['"'])

/-- One or more digits. -/
def Digits (s : Str) : Prop := ∃ n, Decimal s n

/-- A fraction, possibly none. -/
def JsonFrac (s : Str) : Prop := s = [] ∨ ∃ f, Digits f ∧ s = '.' :: f

/-- An exponent, possibly none. -/
def JsonExp (s : Str) : Prop :=
  s = [] ∨ ∃ e sg f, (e = 'e' ∨ e = 'E') ∧ (sg = [] ∨ sg = ['+'] ∨ sg = ['-']) ∧ Digits f ∧ s = e :: (sg ++ f)

/-- An integer without a sign: a zero, or digits that do not start with one. -/
def JsonInt (ds : Str) (n : Nat) : Prop := Decimal ds n ∧ (ds = ['0'] ∨ ds.head? ≠ some '0')

/-- A number: an integer if it is written as one and fits `u64` or, if it is negative, `i64`; a
float otherwise, also "-0". -/
inductive JsonNumber (J : JsonFloats) : Number → Str → Prop
  | nat {ds : Str} {n : Nat} {u : UInt64} : JsonInt ds n → u.toNat = n → JsonNumber J (.posInt u) ds
  | negative {ds : Str} {n : Nat} {i : Int64} : JsonInt ds n → 0 < n → i.toInt = -n → JsonNumber J (.negInt i) ('-' :: ds)
  | float {sg ds frac exp f : Str} {n : Nat} : sg = [] ∨ sg = ['-'] → JsonInt ds n → JsonFrac frac → JsonExp exp →
    (frac = [] → exp = [] → (sg = [] → 2 ^ 64 ≤ n) ∧ (sg = ['-'] → n = 0 ∨ 2 ^ 63 < n)) →
    J.read (sg ++ ds ++ frac ++ exp) = some f → JsonNumber J (.float f) (sg ++ ds ++ frac ++ exp)

mutual
/-- A value with a text for it. -/
def JsonText (J : JsonFloats) : Json → Str → Prop
  | .null, x => x = c!"null"
  | .leaf (.bool true), x => x = c!"true"
  | .leaf (.bool false), x => x = c!"false"
  | .leaf (.str s), x => JsonString s x
  | .leaf (.num v), x => JsonNumber J v x
  | .seq l, x => ∃ y, JsonElems J l y ∧ x = '[' :: (y ++ [']'])
  | .map m, x => ∃ y, JsonMembers J m y ∧ x = '{' :: (y ++ ['}'])
/-- What is between the brackets of an array. -/
def JsonElems (J : JsonFloats) : List Json → Str → Prop
  | [], y => JsonWs y
  | t :: r, y => ∃ w x w' z, JsonWs w ∧ JsonText J t x ∧ JsonWs w' ∧ JsonElems J r z ∧
      ((r = [] ∧ z = [] ∧ y = w ++ x ++ w') ∨ (r ≠ [] ∧ y = w ++ x ++ w' ++ [','] ++ z))
/-- What is between the braces of an object. -/
def JsonMembers (J : JsonFloats) : List (Str × Json) → Str → Prop
  | [], y => JsonWs y
  | (k, t) :: r, y => ∃ w q w1 w2 x w' z, JsonWs w ∧ JsonString k q ∧ JsonWs w1 ∧ JsonWs w2 ∧ JsonText J t x ∧ JsonWs w' ∧
      JsonMembers J r z ∧
      ((r = [] ∧ z = [] ∧ y = w ++ q ++ w1 ++ [':'] ++ w2 ++ x ++ w') ∨
       (r ≠ [] ∧ y = w ++ q ++ w1 ++ [':'] ++ w2 ++ x ++ w' ++ [','] ++ z))
end

mutual
/-- How deep arrays and objects are nested. -/
def nesting {α : Type} : Tree α → Nat
  | .null => 0
  | .leaf _ => 0
  | .seq l => nestingSeq l + 1
  | .map m => nestingMap m + 1
/-- See `nesting`. -/
def nestingSeq {α : Type} : List (Tree α) → Nat
  | [] => 0
  | t :: r => max (nesting t) (nestingSeq r)
/-- See `nesting`. -/
def nestingMap {α : Type} : RMap α → Nat
  | [] => 0
  | (_, t) :: r => max (nesting t) (nestingMap r)
end

/-- A scalar as the reader gives them: numbers tagged negative are negative, and floats are
written as numbers that are read as these floats. -/
def ScalarKept (J : JsonFloats) : JsonScalar → Prop
  | .num (.negInt i) => i.toInt < 0
  | .num (.float s) => JsonNumber J (.float s) (J.write s)
  | _ => True

/-- A document that the reader gives back: at most 127 levels deep, with distinct keys (but for
"sops", and below it), and with numbers that are kept. -/
structure JsonKept (J : JsonFloats) (d : List (Str × Json)) : Prop where
  depth : nestingMap d < 127
  scalars : ∀ pv ∈ leaves d, ScalarKept J pv.2
  keys : ((d.map Prod.fst).filter (· ≠ c!"sops")).Nodup
  inner : ∀ e ∈ d, e.1 ≠ c!"sops" → DistinctKeys e.2

/-- The keys of the entries, in order. -/
def entryKeys {β : Type} (m : List (Str × β)) : List Str := m.map Prod.fst

/-- The keys without repetitions, each at its first place. -/
def firstKeys : List Str → List Str
  | [] => []
  | k :: r => k :: (firstKeys r).filter (· ≠ k)

/-- The same, but "sops" may be repeated. -/
def topFirstKeys : List Str → List Str
  | [] => []
  | k :: r => k :: if k = c!"sops" then topFirstKeys r else (topFirstKeys r).filter (· ≠ k)

mutual
/-- The second value is the first with the repetitions of keys resolved: each key is at its first
place with its last value. -/
def SettledTo : Json → Json → Prop
  | .map m, v => ∃ m', v = .map m' ∧ entryKeys m' = firstKeys (entryKeys m) ∧ ∀ e ∈ m', LastIs m e.1 e.2
  | .seq l, v => ∃ l', v = .seq l' ∧ SettledSeq l l'
  | .null, v => v = .null
  | .leaf a, v => v = .leaf a
/-- See `SettledTo`. -/
def SettledSeq : List Json → List Json → Prop
  | [], l' => l' = []
  | t :: r, l' => ∃ v r', l' = v :: r' ∧ SettledTo t v ∧ SettledSeq r r'
/-- The last value of the key, with repetitions resolved. -/
def LastIs : List (Str × Json) → Str → Json → Prop
  | [], _, _ => False
  | (k', t) :: r, k, v => LastIs r k v ∨ (k ∉ entryKeys r ∧ k' = k ∧ SettledTo t v)
end

/-- The entries of a document with repetitions of keys resolved, but for "sops". -/
structure TopSettled (m d : List (Str × Json)) : Prop where
  keys : entryKeys d = topFirstKeys (entryKeys m)
  values : ∀ e ∈ d, e.1 ≠ c!"sops" → LastIs m e.1 e.2
  sops : d.filter (fun e => e.1 = c!"sops") = m.filter (fun e => e.1 = c!"sops")

/-- The text, possibly within white space, of an object with these entries. -/
def WholeText (J : JsonFloats) (m : List (Str × Json)) (s : Str) : Prop :=
  ∃ w x w', JsonWs w ∧ JsonText J (.map m) x ∧ JsonWs w' ∧ s = w ++ x ++ w'

end Rops.Spec
