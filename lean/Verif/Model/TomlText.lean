import Verif.Model.Floats
/-!
# The syntax of TOML

What `toml` and `toml_edit` (0.8.19 and 0.22.21 in Cargo.lock) do for `toml::to_string_pretty` and
`toml::from_str` (crates/lib/src/file/format/toml/mod.rs:26-32): the writer with its choice of
quotes, headers and lines, and the reader with its rules for keys, headers and tables that are
defined more than once. This is library code whose source is not in /repo; it is written down from
its documented behaviour. How floats and dates are read is a parameter (`TomlScalars`); for floats
it is what Rust does (`rustScalars`), and for dates what `toml_edit` does (`rustToml` in TomlDates.lean).

Simplifications: the reader first splits the text into statements and then builds the document of
them, where the library does both at once; it takes a number or a date to be all the characters
that may be in one, as what follows a value cannot begin with such a character. A table whose
header is read is put into its place at once, where the library does so when the next header is
read; nothing else changes in between. Tables with the key that the library keeps for dates
("$__toml_private_datetime") are taken for tables.
-/

namespace Rops

/-- How floats and dates are read. A float is given by the text that Rust prints for it, a date by
its text. -/
structure TomlScalars where
  /-- the float read for digits with a fraction or an exponent; `none` if it is refused -/
  float : Str → Option Str
  /-- the text printed for the date, time or both that is read -/
  date : Str → Option Str
  /-- arrays and inline tables are nested less than this, and keys have fewer parts (`LIMIT` in
  `toml_edit::parser`) -/
  limit : Nat

/-! ## Writing -/

/-- A hexadecimal digit in upper case. -/
def tomlHex (n : Nat) : Char := if n < 10 then Char.ofNat (48 + n) else Char.ofNat (55 + n)

/-- A character within double quotes; a new line is written as it is if there are three. -/
def tomlEscape (lines : Bool) (c : Char) : Str :=
  if c = '"' then ['\\', '"']
  else if c = '\\' then ['\\', '\\']
  else if c.toNat = 8 then ['\\', 'b']
  else if c.toNat = 9 then ['\\', 't']
  else if c.toNat = 10 then (if lines then ['\n'] else ['\\', 'n'])
  else if c.toNat = 12 then ['\\', 'f']
  else if c.toNat = 13 then ['\\', 'r']
  else if c.toNat < 32 ∨ c.toNat = 127 then ['\\', 'u', '0', '0', tomlHex (c.toNat / 16), tomlHex (c.toNat % 16)]
  else [c]

/-- A text within double quotes. -/
def tomlBasic (s : Str) : Str := '"' :: (s.flatMap (tomlEscape false) ++ ['"'])

/-- A control character that is not a tabulator or a new line. -/
def tomlControl (c : Char) : Bool := (c.toNat < 32 && c.toNat != 9 && c.toNat != 10) || c.toNat == 127

/-- Whether three single quotes follow one another. -/
def tomlTriple : Str → Bool
  | '\'' :: '\'' :: '\'' :: _ => true
  | _ :: r => tomlTriple r
  | [] => false

/-- `infer_style`: whether a text is written within single quotes, that is as it is. -/
def tomlLiteral (s : Str) : Bool :=
  (s.contains '"' || s.contains '\\') && !s.any tomlControl && !tomlTriple s

/-- `to_string_repr`: a text as a value. -/
def tomlString (s : Str) : Str :=
  if s.contains '\n' then
    if tomlLiteral s then c!"'''\n" ++ (s ++ c!"'''")
    else c!"\"\"\"\n" ++ (s.flatMap (tomlEscape true) ++ c!"\"\"\"")
  else if tomlLiteral s then
    if s.contains '\'' then c!"'''" ++ (s ++ c!"'''") else '\'' :: (s ++ ['\''])
  else tomlBasic s

/-- The characters of a key without quotes. -/
def tomlBare (c : Char) : Bool := c.isAlphanum || c == '_' || c == '-'

/-- `to_key_repr`. -/
def tomlKey (k : Str) : Str := if !k.isEmpty && k.all tomlBare then k else tomlBasic k

/-- `DisplayRepr for f64`, given what Rust prints for the float. -/
def tomlFloat (s : Str) : Str :=
  if s = c!"NaN" then c!"nan"
  else if s = c!"inf" ∨ s = c!"-inf" then s
  else if s.contains '.' then s else s ++ c!".0"

mutual
/-- `encode_value`: a value on the line of its key. -/
def Toml.inline : Toml → Str
  | .str s => tomlString s
  | .int n => showInt n
  | .float s => tomlFloat s
  | .bool true => c!"true"
  | .bool false => c!"false"
  | .datetime s => s
  | .array [] => c!"[]"
  | .array [t] => '[' :: (Toml.inline t ++ [']'])
  | .array (t :: u :: r) => '[' :: (Toml.inlineSeq (t :: u :: r) ++ ['\n', ']'])
  | .table [] => c!"{}"
  | .table (e :: r) => '{' :: (Toml.inlineMap true (e :: r) ++ [' ', '}'])
/-- The elements of an array of more than one, each on a line of its own (`visit_array_mut` of
`Pretty`). -/
def Toml.inlineSeq : List Toml → Str
  | [] => []
  | t :: r => c!"\n    " ++ (Toml.inline t ++ (',' :: Toml.inlineSeq r))
/-- The entries of an inline table. -/
def Toml.inlineMap (first : Bool) : List (Str × Toml) → Str
  | [] => []
  | (k, t) :: r => (if first then [] else [',']) ++ (' ' :: (tomlKey k ++ (c!" = " ++ (Toml.inline t ++ Toml.inlineMap false r))))
end

/-- A line of a document that says something: an entry with the parts of its key before the last,
or a header. -/
inductive TomlStmt where
  | entry (path : List Str) (key : Str) (value : Toml)
  | table (path : List Str)
  | element (path : List Str)

/-- A header within another section. -/
def TomlStmt.under (k : Str) : TomlStmt → TomlStmt
  | .entry p k' v => .entry p k' v
  | .table p => .table (k :: p)
  | .element p => .element (k :: p)

/-- The entries of a table without sections (`visit_table`). -/
def Toml.entryStmts : List (Str × Toml) → List TomlStmt
  | [] => []
  | (k, t) :: r => if t.section then Toml.entryStmts r else .entry [] k t :: Toml.entryStmts r

mutual
/-- `visit_nested_tables`: the sections of a table. A table that has sections and no other entries
gets no header of its own (`Table::set_implicit` in `visit_table_mut` of `DocumentFormatter`). -/
def Toml.sectionStmts : List (Str × Toml) → List TomlStmt
  | [] => []
  | (k, .table m) :: r =>
    ((if m.isEmpty || !(Toml.entryStmts m).isEmpty then [TomlStmt.table [k]] else []) ++
      (Toml.entryStmts m ++ Toml.sectionStmts m).map (TomlStmt.under k)) ++ Toml.sectionStmts r
  | (k, .array l) :: r => (if l.all Toml.isTable then Toml.elementStmts k l else []) ++ Toml.sectionStmts r
  | _ :: r => Toml.sectionStmts r
/-- The elements of an array of tables, each with a header. -/
def Toml.elementStmts (k : Str) : List Toml → List TomlStmt
  | [] => []
  | .table m :: r =>
    (TomlStmt.element [k] :: (Toml.entryStmts m ++ Toml.sectionStmts m).map (TomlStmt.under k)) ++ Toml.elementStmts k r
  | _ :: r => Toml.elementStmts k r
end

/-- The parts of a header. -/
def tomlPath : List Str → Str
  | [] => []
  | [k] => tomlKey k
  | k :: k' :: r => tomlKey k ++ ('.' :: tomlPath (k' :: r))

/-- `encode_document`: the lines. An empty line is before each header unless nothing is before
it. -/
def tomlLines (first : Bool) : List TomlStmt → Str
  | [] => []
  | .entry p k v :: r => tomlPath (p ++ [k]) ++ (c!" = " ++ (v.inline ++ ('\n' :: tomlLines false r)))
  | .table p :: r => (if first then [] else ['\n']) ++ ('[' :: (tomlPath p ++ (c!"]\n" ++ tomlLines false r)))
  | .element p :: r => (if first then [] else ['\n']) ++ (c!"[[" ++ (tomlPath p ++ (c!"]]\n" ++ tomlLines false r)))

/-- `toml::to_string_pretty` (toml/mod.rs:26-28). -/
def Toml.render (m : List (Str × Toml)) : Str := tomlLines true (Toml.entryStmts m ++ Toml.sectionStmts m)

/-! ## Reading: lines -/

/-- White space within a line. -/
def tomlSpace (c : Char) : Bool := c == ' ' || c == '\t'

/-- The end of a line. -/
def tomlNewline : Str → Option Str
  | '\n' :: r => some r
  | '\r' :: '\n' :: r => some r
  | _ => none

/-- A character that may be in a comment. -/
def tomlPrintable (c : Char) : Bool := c == '\t' || (32 ≤ c.toNat && c.toNat != 127)

/-- A comment, if there is one. -/
def tomlComment : Str → Str
  | '#' :: r => r.dropWhile tomlPrintable
  | s => s

/-- `line_trailing`: what may follow on a line, and its end or that of the text. -/
def tomlLineEnd (s : Str) : Option Str :=
  match tomlComment (s.dropWhile tomlSpace) with
  | [] => some []
  | r => tomlNewline r

/-- `ws_comment_newline`: white space, comments and ends of lines, between the elements of an
array. -/
def tomlGap : Nat → Str → Option Str
  | 0, _ => none
  | n + 1, s => match s.dropWhile tomlSpace with
    | '#' :: r => match tomlNewline (r.dropWhile tomlPrintable) with
      | some r => tomlGap n r
      | none => none
    | r => match tomlNewline r with
      | some r => tomlGap n r
      | none => some r

/-! ## Reading: texts -/

/-- Where in a text within double quotes the reader is: outside escapes, after a backslash, within
the digits of an escape (how many are to come, and their value), in the white space after a
backslash at the end of a line (and whether the line has ended), after a carriage return, or after
some double quotes. Only within three quotes are the last three met. -/
inductive TomlState where
  | plain
  | escaped
  | hex (left value : Nat)
  | fold (ended : Bool)
  | return (fold : Bool)
  | quotes (n : Nat)

/-- What a character does: ends the text, ends it before the character (with characters), gives
characters and a new state, or is an error. -/
inductive TomlStep where
  | done
  | before (out : Str)
  | more (out : Str) (st : TomlState)
  | bad

/-- The escapes of one character. -/
def tomlSimpleEscape (c : Char) : Option Char :=
  if c = '"' then some '"'
  else if c = '\\' then some '\\'
  else if c = 'b' then some (Char.ofNat 8)
  else if c = 'f' then some (Char.ofNat 12)
  else if c = 'n' then some '\n'
  else if c = 'r' then some '\r'
  else if c = 't' then some '\t'
  else none

/-- A character after a backslash. -/
def tomlEscapeStep (lines : Bool) (c : Char) : TomlStep :=
  match tomlSimpleEscape c with
  | some a => .more [a] .plain
  | none =>
    if c = 'u' then .more [] (.hex 4 0)
    else if c = 'U' then .more [] (.hex 8 0)
    else if lines && tomlSpace c then .more [] (.fold false)
    else if lines && c == '\n' then .more [] (.fold true)
    else if lines && c == '\r' then .more [] (.return true)
    else .bad

/-- A digit of an escape; all of them have to be a character. -/
def tomlHexStep (left value : Nat) (c : Char) : TomlStep :=
  match hexVal c with
  | none => .bad
  | some d =>
    if 1 < left then .more [] (.hex (left - 1) (value * 16 + d))
    else if (value * 16 + d).isValidChar then .more [Char.ofNat (value * 16 + d)] .plain
    else .bad

/-- A character outside escapes. -/
def tomlPlainStep (lines : Bool) (c : Char) : TomlStep :=
  if c = '"' then (if lines then .more [] (.quotes 1) else .done)
  else if c = '\\' then .more [] .escaped
  else if lines && c == '\n' then .more ['\n'] .plain
  else if lines && c == '\r' then .more [] (.return false)
  else if tomlPrintable c then .more [c] .plain
  else .bad

/-- The same, after characters that are known now. -/
def TomlStep.after (out : Str) : TomlStep → TomlStep
  | .more o st => .more (out ++ o) st
  | s => s

/-- `basic_string`, `ml_basic_string` and `escape`, one character. -/
def tomlStep (lines : Bool) (st : TomlState) (c : Char) : TomlStep :=
  match st with
  | .plain => tomlPlainStep lines c
  | .escaped => tomlEscapeStep lines c
  | .hex left value => tomlHexStep left value c
  | .fold ended =>
    if tomlSpace c then .more [] (.fold ended)
    else if c = '\n' then .more [] (.fold true)
    else if c = '\r' then .more [] (.return true)
    else if ended then tomlPlainStep lines c
    else .bad
  | .return fold =>
    if c = '\n' then (if fold then .more [] (.fold true) else .more ['\n'] .plain)
    else .bad
  | .quotes n =>
    if c = '"' then (if n < 5 then .more [] (.quotes (n + 1)) else .bad)
    else if n < 3 then (tomlPlainStep lines c).after (List.replicate n '"')
    else .before (List.replicate (n - 3) '"')

/-- A text within double quotes, after the first. -/
def tomlChars (lines : Bool) : TomlState → Str → Option (Str × Str)
  | .quotes n, [] => if 3 ≤ n then some (List.replicate (n - 3) '"', []) else none
  | _, [] => none
  | st, c :: r => match tomlStep lines st c with
    | .done => some ([], r)
    | .before o => some (o, c :: r)
    | .bad => none
    | .more o st => match tomlChars lines st r with
      | some (s, r) => some (o ++ s, r)
      | none => none

/-- `ml_literal_string`, after the first quotes and so many further ones. -/
def tomlRaw : Nat → Str → Option (Str × Str)
  | n, [] => if 3 ≤ n then some (List.replicate (n - 3) '\'', []) else none
  | n, c :: r =>
    if c = '\'' then (if n < 5 then tomlRaw (n + 1) r else none)
    else if 3 ≤ n then some (List.replicate (n - 3) '\'', c :: r)
    else if c = '\r' then (if r.head? = some '\n' then (tomlRaw 0 r).map fun x => (List.replicate n '\'' ++ x.1, x.2) else none)
    else if c = '\n' ∨ tomlPrintable c then (tomlRaw 0 r).map fun x => (List.replicate n '\'' ++ c :: x.1, x.2)
    else none

/-- `literal_string`, after the first quote. -/
def tomlRawLine : Str → Option (Str × Str)
  | [] => none
  | c :: r =>
    if c = '\'' then some ([], r)
    else if tomlPrintable c then (tomlRawLine r).map fun x => (c :: x.1, x.2)
    else none

/-- The new line right after three quotes is not part of the text. -/
def tomlFirstLine (s : Str) : Str := (tomlNewline s).getD s

/-- `string`: a text as a value. -/
def tomlText : Str → Option (Str × Str)
  | '"' :: '"' :: '"' :: r => tomlChars true .plain (tomlFirstLine r)
  | '"' :: r => tomlChars false .plain r
  | '\'' :: '\'' :: '\'' :: r => tomlRaw 0 (tomlFirstLine r)
  | '\'' :: r => tomlRawLine r
  | _ => none

/-! ## Reading: keys -/

/-- `simple_key`. -/
def tomlSimpleKey : Str → Option (Str × Str)
  | '"' :: r => tomlChars false .plain r
  | '\'' :: r => tomlRawLine r
  | s => if (s.takeWhile tomlBare).isEmpty then none else some (s.takeWhile tomlBare, s.dropWhile tomlBare)

/-- `key`: parts with dots between, and white space around each. -/
def tomlReadPath : Nat → Str → Option (List Str × Str)
  | 0, _ => none
  | n + 1, s => match tomlSimpleKey (s.dropWhile tomlSpace) with
    | none => none
    | some (k, r) => match r.dropWhile tomlSpace with
      | '.' :: r => match tomlReadPath n r with
        | some (p, r) => some (k :: p, r)
        | none => none
      | r => some ([k], r)

/-- The key with the limit on its parts. -/
def tomlReadKey (S : TomlScalars) (s : Str) : Option (List Str × Str) :=
  match tomlReadPath (s.length + 1) s with
  | some (p, r) => if p.length < S.limit then some (p, r) else none
  | none => none

/-! ## Reading: numbers and dates -/

/-- The characters of numbers, dates and the words for values. -/
def tomlTokenChar (c : Char) : Bool := c.isAlphanum || c == '_' || c == '-' || c == '+' || c == '.' || c == ':'

/-- Digits, with single underscores between them; without these. -/
def tomlDigits (ok : Char → Bool) : Str → Option Str
  | [] => none
  | [c] => if ok c then some [c] else none
  | c :: '_' :: r => if ok c then (tomlDigits ok r).map (c :: ·) else none
  | c :: r => if ok c then (tomlDigits ok r).map (c :: ·) else none

/-- `dec_int` without the sign: no zero before other digits. -/
def tomlDecimal (s : Str) : Option Str :=
  match tomlDigits Char.isDigit s with
  | some ds => if ds.head? = some '0' ∧ 1 < ds.length then none else some ds
  | none => none

/-- The sign, and the rest. -/
def tomlSign : Str → Bool × Str
  | '-' :: r => (true, r)
  | '+' :: r => (false, r)
  | s => (false, s)

/-- The number that digits to a base stand for. -/
def tomlNat (base : Nat) (ds : Str) : Nat := ds.foldl (fun n c => n * base + (hexVal c).getD 0) 0

/-- An integer of 64 bits. -/
def tomlFits (n : Int) : Option Int64 :=
  if -(2 ^ 63) ≤ n ∧ n < 2 ^ 63 then some (Int64.ofInt n) else none

/-- A number with its sign. -/
def tomlSigned (negative : Bool) (n : Nat) : Int := if negative then -(n : Int) else n

/-- `integer`. -/
def tomlInteger : Str → Option Int64
  | '0' :: 'x' :: r => (tomlDigits (fun c => (hexVal c).isSome) r).bind fun ds => tomlFits (tomlNat 16 ds)
  | '0' :: 'o' :: r => (tomlDigits (fun c => c.isDigit && c.toNat < 56) r).bind fun ds => tomlFits (tomlNat 8 ds)
  | '0' :: 'b' :: r => (tomlDigits (fun c => c == '0' || c == '1') r).bind fun ds => tomlFits (tomlNat 2 ds)
  | s => (tomlDecimal (tomlSign s).2).bind fun ds => tomlFits (tomlSigned (tomlSign s).1 (tomlNat 10 ds))

/-- `exp`, or nothing. -/
def tomlExponent : Str → Option Str
  | [] => some []
  | c :: r =>
    if c = 'e' ∨ c = 'E' then
      (tomlDigits Char.isDigit (tomlSign r).2).map fun ds => 'e' :: ((if (tomlSign r).1 then ['-'] else []) ++ ds)
    else none

/-- `frac` and `exp`, at least one of them. -/
def tomlFraction : Str → Option Str
  | [] => none
  | c :: r =>
    if c = '.' then
      (tomlDigits Char.isDigit (r.takeWhile fun c => c.isDigit || c == '_')).bind fun ds =>
        (tomlExponent (r.dropWhile fun c => c.isDigit || c == '_')).map fun e => '.' :: (ds ++ e)
    else tomlExponent (c :: r)

/-- `float`. -/
def tomlReadFloat (S : TomlScalars) (s : Str) : Option Str :=
  let r := (tomlSign s).2
  let sg : Str := if (tomlSign s).1 then ['-'] else []
  if r = c!"inf" then some (sg ++ c!"inf")
  else if r = c!"nan" then some c!"NaN"
  else (tomlDecimal (r.takeWhile fun c => c.isDigit || c == '_')).bind fun ds =>
    (tomlFraction (r.dropWhile fun c => c.isDigit || c == '_')).bind fun f => S.float (sg ++ (ds ++ f))

/-- A value that is not a text, an array or a table. -/
def tomlScalar (S : TomlScalars) (s : Str) : Option Toml :=
  if s = c!"true" then some (.bool true)
  else if s = c!"false" then some (.bool false)
  else match tomlInteger s with
    | some n => some (.int n)
    | none => match tomlReadFloat S s with
      | some f => some (.float f)
      | none => (S.date s).map .datetime

/-- A date without a time. -/
def tomlDay (s : Str) : Bool := s.length == 10 && (s.drop 4).head? == some '-' && (s.drop 7).head? == some '-'

/-- All characters of a number or a date; between date and time may be a space. -/
def tomlToken (s : Str) : Str × Str :=
  let t := s.takeWhile tomlTokenChar
  match s.dropWhile tomlTokenChar with
  | ' ' :: c :: r =>
    if tomlDay t && c.isDigit then (t ++ ' ' :: (c :: r).takeWhile tomlTokenChar, (c :: r).dropWhile tomlTokenChar)
    else (t, ' ' :: c :: r)
  | r => (t, r)

/-! ## Building tables -/

/-- `Item`: a value, a table with whether it has no header (`implicit`) and whether it is there
through the parts of a key (`dotted`), or an array of tables. -/
inductive TomlItem where
  | value (v : Toml)
  | table (implicit dotted : Bool) (items : List (Str × TomlItem))
  | tables (l : List TomlItem)

mutual
/-- The value that an item stands for. -/
def TomlItem.toml : TomlItem → Toml
  | .value v => v
  | .table _ _ m => .table (TomlItem.tomlMap m)
  | .tables l => .array (TomlItem.tomlSeq l)
/-- See `TomlItem.toml`. -/
def TomlItem.tomlSeq : List TomlItem → List Toml
  | [] => []
  | t :: r => TomlItem.toml t :: TomlItem.tomlSeq r
/-- See `TomlItem.toml`. -/
def TomlItem.tomlMap : List (Str × TomlItem) → List (Str × Toml)
  | [] => []
  | (k, t) :: r => (k, TomlItem.toml t) :: TomlItem.tomlMap r
end

/-- `descend_path`: does something to the table at the end of a path. Tables on the way are made if
missing; of an array of tables the last is meant. Through a key no table is changed that has a
header. -/
def TomlItem.descend (dotted : Bool) (f : TomlItem → Option TomlItem) : List Str → TomlItem → Option TomlItem
  | [], t => f t
  | k :: p, .table i d m => match IndexMap.get m k with
    | none => match TomlItem.descend dotted f p (.table true dotted []) with
      | some t => some (.table i d (IndexMap.insert m k t))
      | none => none
    | some (.table i' d' m') =>
      if dotted && !i' then none
      else match TomlItem.descend dotted f p (.table i' d' m') with
        | some t => some (.table i d (IndexMap.insert m k t))
        | none => none
    | some (.tables l) => match l.getLast? with
      | none => none
      | some t => match TomlItem.descend dotted f p t with
        | some t => some (.table i d (IndexMap.insert m k (.tables (l.dropLast ++ [t]))))
        | none => none
    | some (.value _) => none
  | _, _ => none

/-- `on_keyval`: an entry whose key is new, in a table that is there through the key exactly if the
key has parts. -/
def TomlItem.addEntry (dotted : Bool) (k : Str) (v : Toml) : TomlItem → Option TomlItem
  | .table i d m => if d != dotted then none else match IndexMap.get m k with
    | none => some (.table i d (m ++ [(k, .value v)]))
    | some _ => none
  | _ => none

/-- `on_std_header`: a table that is new, or that had no header. -/
def TomlItem.addTable (k : Str) : TomlItem → Option TomlItem
  | .table i d m => match IndexMap.get m k with
    | none => some (.table i d (m ++ [(k, .table false false [])]))
    | some (.table true false m') => some (.table i d (m.filter (fun e => e.1 != k) ++ [(k, .table false false m')]))
    | some _ => none
  | _ => none

/-- `on_array_header`: one more table in an array of tables. -/
def TomlItem.addElement (k : Str) : TomlItem → Option TomlItem
  | .table i d m => match IndexMap.get m k with
    | none => some (.table i d (m ++ [(k, .tables [.table false false []])]))
    | some (.tables l) => some (.table i d (IndexMap.insert m k (.tables (l ++ [.table false false []]))))
    | some _ => none
  | _ => none

/-- An entry in a table. -/
def TomlItem.enter (p : List Str) (k : Str) (v : Toml) (t : TomlItem) : Option TomlItem :=
  TomlItem.descend true (TomlItem.addEntry (!p.isEmpty) k v) p t

/-- What a statement does to the document, the header before it given. -/
def TomlStmt.apply (header : List Str) (t : TomlItem) : TomlStmt → Option TomlItem
  | .entry p k v => TomlItem.descend false (TomlItem.enter p k v) header t
  | .table p => match p.getLast? with
    | some k => TomlItem.descend false (TomlItem.addTable k) p.dropLast t
    | none => none
  | .element p => match p.getLast? with
    | some k => TomlItem.descend false (TomlItem.addElement k) p.dropLast t
    | none => none

/-- The header for the next statement. -/
def TomlStmt.header (header : List Str) : TomlStmt → List Str
  | .entry _ _ _ => header
  | .table p => p
  | .element p => p

/-- All statements. -/
def TomlStmt.applyAll (header : List Str) (t : TomlItem) : List TomlStmt → Option TomlItem
  | [] => some t
  | s :: r => match s.apply header t with
    | some t => TomlStmt.applyAll (s.header header) t r
    | none => none

/-! ## Reading: values and documents -/

/-- `table_from_pairs`: the entries of an inline table. -/
def tomlInlineTable (l : List TomlStmt) : Option Toml :=
  (TomlStmt.applyAll [] (.table false false []) l).map TomlItem.toml

mutual
/-- `value`, at so many levels of arrays and inline tables. The first argument bounds the steps. -/
def tomlValue (S : TomlScalars) : Nat → Nat → Str → Option (Toml × Str)
  | 0, _, _ => none
  | n + 1, d, s => match s with
    | '[' :: r => if d + 1 < S.limit then match tomlElems S n (d + 1) r with
        | some (l, r) => some (.array l, r)
        | none => none
      else none
    | '{' :: r => if d + 1 < S.limit then match r.dropWhile tomlSpace with
        | '}' :: r => some (.table [], r)
        | r => match tomlPairs S n (d + 1) r with
          | some (l, r) => match tomlInlineTable l with
            | some t => some (t, r)
            | none => none
          | none => none
      else none
    | c :: r => if c = '"' ∨ c = '\'' then match tomlText (c :: r) with
        | some (s, r) => some (.str s, r)
        | none => none
      else match tomlScalar S (tomlToken (c :: r)).1 with
        | some v => some (v, (tomlToken (c :: r)).2)
        | none => none
    | [] => none
/-- `array_values`: the rest of an array; a comma may be after the last element. -/
def tomlElems (S : TomlScalars) : Nat → Nat → Str → Option (List Toml × Str)
  | 0, _, _ => none
  | n + 1, d, s => match tomlGap (s.length + 1) s with
    | none => none
    | some (']' :: r) => some ([], r)
    | some r => match tomlValue S n d r with
      | none => none
      | some (t, r) => match tomlGap (r.length + 1) r with
        | some (',' :: r) => match tomlElems S n d r with
          | some (l, r) => some (t :: l, r)
          | none => none
        | some (']' :: r) => some ([t], r)
        | _ => none
/-- `inline_table_keyvals`: the rest of an inline table, on one line. -/
def tomlPairs (S : TomlScalars) : Nat → Nat → Str → Option (List TomlStmt × Str)
  | 0, _, _ => none
  | n + 1, d, s => match tomlReadKey S s with
    | some (p, '=' :: r) => match tomlValue S n d (r.dropWhile tomlSpace) with
      | none => none
      | some (t, r) => match r.dropWhile tomlSpace with
        | ',' :: r => match tomlPairs S n d r with
          | some (l, r) => some (.entry p.dropLast (p.getLast?.getD []) t :: l, r)
          | none => none
        | '}' :: r => some ([.entry p.dropLast (p.getLast?.getD []) t], r)
        | _ => none
    | _ => none
end

/-- `table`: a header, after its brackets, with so many to close it. -/
def tomlHeader (S : TomlScalars) (close : Str) (s : Str) : Option (List Str × Str) :=
  match tomlReadKey S s with
  | none => none
  | some (p, r) => match stripPrefix close r with
    | none => none
    | some r => match tomlLineEnd r with
      | some r => some (p, r)
      | none => none

/-- `keyval`: an entry on a line of its own. -/
def tomlEntry (S : TomlScalars) (s : Str) : Option (TomlStmt × Str) :=
  match tomlReadKey S s with
  | some (p, '=' :: r) => match tomlValue S (r.length + 1) 0 (r.dropWhile tomlSpace) with
    | none => none
    | some (t, r) => match tomlLineEnd r with
      | some r => some (.entry p.dropLast (p.getLast?.getD []) t, r)
      | none => none
  | _ => none

/-- `document`: the statements of a text. The first argument bounds the steps. -/
def tomlStmts (S : TomlScalars) : Nat → Str → Option (List TomlStmt)
  | 0, _ => none
  | n + 1, s => match s.dropWhile tomlSpace with
    | [] => some []
    | '#' :: r => match tomlLineEnd ('#' :: r) with
      | some r => tomlStmts S n r
      | none => none
    | '[' :: '[' :: r => match tomlHeader S c!"]]" r with
      | some (p, r) => (tomlStmts S n r).map (.element p :: ·)
      | none => none
    | '[' :: r => match tomlHeader S c!"]" r with
      | some (p, r) => (tomlStmts S n r).map (.table p :: ·)
      | none => none
    | c :: r => match tomlNewline (c :: r) with
      | some r => tomlStmts S n r
      | none => match tomlEntry S (c :: r) with
        | some (e, r) => (tomlStmts S n r).map (e :: ·)
        | none => none

/-- The mark that may be at the start of a text. -/
def tomlMark (s : Str) : Str := match s with
  | c :: r => if c.toNat = 0xFEFF then r else c :: r
  | [] => []

/-- `toml::from_str` (toml/mod.rs:30-32). -/
def Toml.parse (S : TomlScalars) (s : Str) : Option (List (Str × Toml)) :=
  match tomlStmts S (s.length + 1) (tomlMark s) with
  | none => none
  | some l => match TomlStmt.applyAll [] (.table false false []) l with
    | some (.table _ _ m) => some (TomlItem.tomlMap m)
    | _ => none

/-- The syntax of TOML. -/
def TomlScalars.ops (S : TomlScalars) : TextOps .toml where
  render := Toml.render
  parse := Toml.parse S

/-- The floats of Rust: only one that is too large is refused, not one that is too small
(`verify(|f| *f != f64::INFINITY)`). -/
def rustFloat (s : Str) : Option Str :=
  match F64.parse s with
  | none => none
  | some (.infinite false) => none
  | some f => some f.show

/-- Floats as they are read, and dates as they may be. -/
def rustScalars (date : Str → Option Str) : TomlScalars where
  float := rustFloat
  date := date
  limit := 80

end Rops
