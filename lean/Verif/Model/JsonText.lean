import Verif.Model.Document
/-!
# The syntax of JSON

What `serde_json` (1.0.128 in Cargo.lock) does for `serde_json::to_string_pretty` and
`serde_json::from_str` (crates/lib/src/file/format/json/mod.rs:21-27): the writer, the reader with
its limit on nesting, and what becomes of repeated keys. This is library code whose source is not
in /repo; it is written down from its documented behaviour. How floats are written and read is a
parameter (`JsonFloats`).

Simplification: below the top-level key "sops" repeated keys are kept, as the metadata of a file
is read field by field; a document in plaintext with that key would not keep them.
-/

namespace Rops

/-- How floats are written and read. A float is given by the text that Rust prints for it. -/
structure JsonFloats where
  /-- `ryu::Buffer::format_finite` -/
  write : Str → Str
  /-- the float read for the text of a number; `none` is "number out of range" -/
  read : Str → Option Str

/-! ## Writing -/

/-- A hexadecimal digit in lower case. -/
def jsonHex (n : Nat) : Char := if n < 10 then Char.ofNat (48 + n) else Char.ofNat (87 + n)

/-- `format_escaped_str_contents`, one character. -/
def jsonEscape (c : Char) : Str :=
  if c = '"' then ['\\', '"']
  else if c = '\\' then ['\\', '\\']
  else if c.toNat = 8 then ['\\', 'b']
  else if c.toNat = 9 then ['\\', 't']
  else if c.toNat = 10 then ['\\', 'n']
  else if c.toNat = 12 then ['\\', 'f']
  else if c.toNat = 13 then ['\\', 'r']
  else if c.toNat < 32 then ['\\', 'u', '0', '0', jsonHex (c.toNat / 16), jsonHex (c.toNat % 16)]
  else [c]

/-- `format_escaped_str`. -/
def jsonQuote (s : Str) : Str := '"' :: (s.flatMap jsonEscape ++ ['"'])

/-- `Serialize for Number`. -/
def Number.jsonText (J : JsonFloats) : Number → Str
  | .posInt n => Nat.toDigits 10 n.toNat
  | .negInt n => showInt n
  | .float s => J.write s

/-- A scalar. -/
def JsonScalar.text (J : JsonFloats) : JsonScalar → Str
  | .bool true => c!"true"
  | .bool false => c!"false"
  | .num n => n.jsonText J
  | .str s => jsonQuote s

/-- `PrettyFormatter`: a new line, indented by two spaces for each level. -/
def jsonLine (n : Nat) : Str := '\n' :: List.replicate (2 * n) ' '

mutual
/-- `PrettyFormatter` at a level. -/
def Json.pretty (J : JsonFloats) (n : Nat) : Json → Str
  | .null => c!"null"
  | .leaf a => a.text J
  | .seq l => '[' :: (Json.prettySeq J (n + 1) true l ++ ((if l.isEmpty then [] else jsonLine n) ++ [']']))
  | .map m => '{' :: (Json.prettyMap J (n + 1) true m ++ ((if m.isEmpty then [] else jsonLine n) ++ ['}']))
/-- `begin_array_value` and the element, for each. -/
def Json.prettySeq (J : JsonFloats) (n : Nat) (first : Bool) : List Json → Str
  | [] => []
  | t :: r => (if first then [] else [',']) ++ (jsonLine n ++ (Json.pretty J n t ++ Json.prettySeq J n false r))
/-- `begin_object_key`, the key, `begin_object_value` and the value, for each. -/
def Json.prettyMap (J : JsonFloats) (n : Nat) (first : Bool) : List (Str × Json) → Str
  | [] => []
  | (k, t) :: r => (if first then [] else [',']) ++ (jsonLine n ++ (jsonQuote k ++ (':' :: ' ' ::
      (Json.pretty J n t ++ Json.prettyMap J n false r))))
end

/-- `serde_json::to_string_pretty` (json/mod.rs:21-23). -/
def Json.render (J : JsonFloats) (m : List (Str × Json)) : Str := Json.pretty J 0 (.map m)

/-! ## Reading -/

/-- White space. -/
def jsonSpace (c : Char) : Bool := c = ' ' || c = '\n' || c = '\t' || c = '\r'

/-- `parse_whitespace`. -/
def skipSpace (s : Str) : Str := s.dropWhile jsonSpace

/-- The value of a hexadecimal digit of either case. -/
def hexVal (c : Char) : Option Nat :=
  if 48 ≤ c.toNat ∧ c.toNat ≤ 57 then some (c.toNat - 48)
  else if 65 ≤ c.toNat ∧ c.toNat ≤ 70 then some (c.toNat - 55)
  else if 97 ≤ c.toNat ∧ c.toNat ≤ 102 then some (c.toNat - 87)
  else none

/-- Where in a string the reader is: outside escapes, after a backslash, within the digits of a
`\u` escape (how many, their value, and the surrogate before), after a leading surrogate, and
after the backslash that has to follow it. -/
inductive StrState where
  | plain
  | escaped
  | hex (digits value : Nat) (high : Option Nat)
  | paired (high : Nat)
  | pairedEscape (high : Nat)

/-- What a character does: ends the string, gives characters and a new state, or is an error. -/
inductive StrStep where
  | done
  | more (out : Str) (st : StrState)
  | bad

/-- All four digits of a `\u` escape are read. -/
def unicodeStep (v : Nat) : Option Nat → StrStep
  | none =>
    if 0xDC00 ≤ v ∧ v ≤ 0xDFFF then .bad
    else if 0xD800 ≤ v ∧ v ≤ 0xDBFF then .more [] (.paired v)
    else .more [Char.ofNat v] .plain
  | some h =>
    if 0xDC00 ≤ v ∧ v ≤ 0xDFFF then .more [Char.ofNat (0x10000 + (h - 0xD800) * 0x400 + (v - 0xDC00))] .plain
    else .bad

/-- The escapes of one character. -/
def simpleEscape (c : Char) : Option Char :=
  if c = '"' then some '"'
  else if c = '\\' then some '\\'
  else if c = '/' then some '/'
  else if c = 'b' then some (Char.ofNat 8)
  else if c = 'f' then some (Char.ofNat 12)
  else if c = 'n' then some '\n'
  else if c = 'r' then some '\r'
  else if c = 't' then some '\t'
  else none

/-- `parse_str_bytes`, `parse_escape` and `parse_unicode_escape`, one character. -/
def strStep (st : StrState) (c : Char) : StrStep :=
  match st with
  | .plain =>
    if c = '"' then .done
    else if c = '\\' then .more [] .escaped
    else if c.toNat < 32 then .bad
    else .more [c] .plain
  | .escaped =>
    if c = 'u' then .more [] (.hex 0 0 none)
    else match simpleEscape c with
      | some x => .more [x] .plain
      | none => .bad
  | .hex k v high => match hexVal c with
    | none => .bad
    | some x => if k = 3 then unicodeStep (v * 16 + x) high else .more [] (.hex (k + 1) (v * 16 + x) high)
  | .paired h => if c = '\\' then .more [] (.pairedEscape h) else .bad
  | .pairedEscape h => if c = 'u' then .more [] (.hex 0 0 (some h)) else .bad

/-- The rest of a string, after the opening quote. -/
def readChars : StrState → Str → Option (Str × Str)
  | _, [] => none
  | st, c :: r => match strStep st c with
    | .done => some ([], r)
    | .bad => none
    | .more out st' => match readChars st' r with
      | none => none
      | some (s, r) => some (out ++ s, r)

/-- The digits at the start. -/
def scanDigits (s : Str) : Str × Str := (s.takeWhile Char.isDigit, s.dropWhile Char.isDigit)

/-- `parse_integer`: one or more digits, none after a leading zero. -/
def scanInt (s : Str) : Option (Str × Str) :=
  match scanDigits s with
  | ([], _) => none
  | ('0' :: _ :: _, _) => none
  | (ds, r) => some (ds, r)

/-- `parse_decimal`: a point and one or more digits, if there is a point. -/
def scanFrac (s : Str) : Option (Str × Str) :=
  match s with
  | '.' :: r => match scanDigits r with
    | ([], _) => none
    | (ds, r) => some ('.' :: ds, r)
  | _ => some ([], s)

/-- A sign in an exponent. -/
def scanSign : Str → Str × Str
  | '+' :: r => (['+'], r)
  | '-' :: r => (['-'], r)
  | r => ([], r)

/-- `parse_exponent`: an optional sign and one or more digits after an 'e' of either case. -/
def scanExp (s : Str) : Option (Str × Str) :=
  match s with
  | [] => some ([], [])
  | c :: r =>
    if c = 'e' ∨ c = 'E' then
      match scanDigits (scanSign r).2 with
      | ([], _) => none
      | (ds, r') => some (c :: ((scanSign r).1 ++ ds), r')
    else some ([], c :: r)

/-- A number without fraction and exponent that fits: `u64`, or a negative `i64` (`parse_number`;
"-0" is a float). -/
def integerOf (negative : Bool) (ds : Str) : Option Number :=
  if negative then
    if Nat.ofDigitChars 10 ds 0 = 0 ∨ 2 ^ 63 < Nat.ofDigitChars 10 ds 0 then none
    else some (.negInt (Int64.ofInt (-(Nat.ofDigitChars 10 ds 0 : Int))))
  else
    if 2 ^ 64 ≤ Nat.ofDigitChars 10 ds 0 then none
    else some (.posInt (UInt64.ofNat (Nat.ofDigitChars 10 ds 0)))

/-- The number of a text without its sign. -/
def readUnsigned (J : JsonFloats) (negative : Bool) (s : Str) : Option (Number × Str) :=
  match scanInt s with
  | none => none
  | some (ds, r1) => match scanFrac r1 with
    | none => none
    | some (frac, r2) => match scanExp r2 with
      | none => none
      | some (exp, r3) =>
        match (if frac = [] ∧ exp = [] then integerOf negative ds else none) with
        | some n => some (n, r3)
        | none => match J.read ((if negative then ['-'] else []) ++ ds ++ frac ++ exp) with
          | some f => some (.float f, r3)
          | none => none

/-- `parse_any_number`. -/
def readNumber (J : JsonFloats) (s : Str) : Option (Number × Str) :=
  match s with
  | '-' :: r => readUnsigned J true r
  | _ => readUnsigned J false s

mutual
/-- `deserialize_any`: a value after white space. The first number bounds the recursion, the
second is `remaining_depth`. -/
def readValue (J : JsonFloats) : Nat → Nat → Str → Option (Json × Str)
  | 0, _, _ => none
  | n + 1, d, s => match skipSpace s with
    | [] => none
    | c :: r =>
      if c = '"' then match readChars .plain r with
        | some (s, r) => some (.leaf (.str s), r)
        | none => none
      else if c = '[' then if d ≤ 1 then none else match readElems J n (d - 1) true r with
        | some (l, r) => some (.seq l, r)
        | none => none
      else if c = '{' then if d ≤ 1 then none else match readEntries J n (d - 1) true r with
        | some (m, r) => some (.map m, r)
        | none => none
      else if c = 'n' then match stripPrefix c!"ull" r with
        | some r => some (.null, r)
        | none => none
      else if c = 't' then match stripPrefix c!"rue" r with
        | some r => some (.leaf (.bool true), r)
        | none => none
      else if c = 'f' then match stripPrefix c!"alse" r with
        | some r => some (.leaf (.bool false), r)
        | none => none
      else match readNumber J (c :: r) with
        | some (x, r) => some (.leaf (.num x), r)
        | none => none
/-- `SeqAccess`: the rest of an array. -/
def readElems (J : JsonFloats) : Nat → Nat → Bool → Str → Option (List Json × Str)
  | 0, _, _, _ => none
  | n + 1, d, first, s => match skipSpace s with
    | [] => none
    | c :: r =>
      if c = ']' then some ([], r)
      else match (if first then some (c :: r) else if c = ',' then some r else none) with
        | none => none
        | some s' => match readValue J n d s' with
          | none => none
          | some (t, r) => match readElems J n d false r with
            | none => none
            | some (l, r) => some (t :: l, r)
/-- `MapAccess`: the rest of an object. -/
def readEntries (J : JsonFloats) : Nat → Nat → Bool → Str → Option (List (Str × Json) × Str)
  | 0, _, _, _ => none
  | n + 1, d, first, s => match skipSpace s with
    | [] => none
    | c :: r =>
      if c = '}' then some ([], r)
      else match (if first then some (c :: r) else if c = ',' then some (skipSpace r) else none) with
        | some ('"' :: r) => match readChars .plain r with
          | none => none
          | some (k, r) => match skipSpace r with
            | ':' :: r => match readValue J n d r with
              | none => none
              | some (t, r) => match readEntries J n d false r with
                | none => none
                | some (m, r) => some ((k, t) :: m, r)
            | _ => none
        | _ => none
end

mutual
/-- An object is an index map: of entries with the same key the last counts, at the place of the
first. -/
def Json.settle : Json → Json
  | .map m => .map (Json.settleMap [] m)
  | .seq l => .seq (Json.settleSeq l)
  | t => t
/-- See `Json.settle`. -/
def Json.settleSeq : List Json → List Json
  | [] => []
  | t :: r => Json.settle t :: Json.settleSeq r
/-- See `Json.settle`: the entries inserted into a map. -/
def Json.settleMap (acc : List (Str × Json)) : List (Str × Json) → List (Str × Json)
  | [] => acc
  | (k, t) :: r => Json.settleMap (IndexMap.insert acc k (Json.settle t)) r
end

/-- The entries of a file: "sops" is a field, the others are inserted into a map
(file/core.rs:8-19). -/
def Json.settleTop (acc : List (Str × Json)) : List (Str × Json) → List (Str × Json)
  | [] => acc
  | (k, t) :: r =>
    if k = sopsKey then Json.settleTop (acc ++ [(k, t)]) r
    else Json.settleTop (IndexMap.insert acc k (Json.settle t)) r

/-- `serde_json::from_str` (json/mod.rs:25-27) for an object: nothing but white space may follow
(`Deserializer::end`); at most 127 levels of arrays and objects. -/
def Json.parse (J : JsonFloats) (s : Str) : Option (List (Str × Json)) :=
  match readValue J (s.length + 1) 128 s with
  | some (.map m, r) => if skipSpace r = [] then some (Json.settleTop [] m) else none
  | _ => none

/-- The syntax of JSON. -/
def JsonFloats.ops (J : JsonFloats) : TextOps .json where
  render := Json.render J
  parse := Json.parse J

end Rops
