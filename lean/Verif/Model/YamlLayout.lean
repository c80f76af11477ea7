import Verif.Model.YamlScalars
import Verif.Model.Mac
/-!
# The layout of YAML documents

How `libyaml` (`unsafe-libyaml` 0.2.11 in Cargo.lock), as it is used by `serde_yaml` (0.9.34) for
`serde_yaml::to_string` and `serde_yaml::from_str` (crates/lib/src/file/format/yaml/mod.rs:22-28),
lays out documents: in blocks, indented by two, with lines of any length. This is library code
whose source is not in /repo; it is written down from its documented behaviour.

The writer is `emitter.c` for documents without tags whose keys are scalars. Simplification: texts
with the characters U+2028 and U+2029, which YAML 1.1 takes for ends of lines, are always in double
quotes.

The reader is one of a part of YAML: blocks of any indentation, comments, empty lines, plain and
quoted scalars on one line, literal scalars, and flow collections on one line. What is not in this
part (flow collections over several lines, folded and continued scalars, tags, anchors, directives,
tabs) is refused by the model, though `libyaml` may read it.
-/

namespace Rops

/-- Indentation. -/
def yamlPad (n : Nat) : Str := List.replicate n ' '

/-- `IS_PRINTABLE` without ends of lines. -/
def yamlPrintable (c : Char) : Bool :=
  (0x20 ≤ c.toNat && c.toNat ≤ 0x7e) || 0x10000 ≤ c.toNat ||
    (0xa0 ≤ c.toNat && c.toNat ≤ 0xfffd && c.toNat != 0xfeff && c.toNat != 0x2028 && c.toNat != 0x2029)

/-- White space or the end follows. -/
def blankNext : Str → Bool
  | [] => true
  | c :: _ => c == ' '

/-- The characters that may not be first in a plain scalar. -/
def yamlIndicators : List Char :=
  ['#', ',', '[', ']', '{', '}', '&', '*', '!', '|', '>', '\'', '"', '%', '@', '`']

/-- The first character of a plain scalar. -/
def plainFirst : Str → Bool
  | [] => false
  | c :: r => !yamlIndicators.contains c && c != ' ' && !((c == '?' || c == ':' || c == '-') && blankNext r)

/-- The other characters of a plain scalar, after white space or not. -/
def plainRest : Bool → Str → Bool
  | _, [] => true
  | blank, c :: r => !(c == ':' && blankNext r) && !(c == '#' && blank) && plainRest (c == ' ') r

/-- The beginnings of the marks of documents. -/
def documentMark (s : Str) : Bool := s.take 3 == c!"---" || s.take 3 == c!"..."

/-- `yaml_emitter_analyze_scalar`, `block_plain_allowed`. -/
def plainAllowed (s : Str) : Bool :=
  plainFirst s && plainRest false s.tail && !documentMark s && s.all yamlPrintable && s.getLast? != some ' '

/-! ## Writing scalars -/

/-- `yaml_emitter_write_single_quoted`. -/
def yamlSingle (s : Str) : Str := '\'' :: (s.flatMap (fun c => if c = '\'' then c!"''" else [c]) ++ ['\''])

/-- Digits to base 16. -/
def yamlHex : Nat → Nat → Str
  | 0, _ => []
  | w + 1, n => yamlHex w (n / 16) ++ [hexDigit (n % 16)]

/-- The escapes of one character. -/
def yamlEscapes : List (Char × Char) :=
  [('0', '\x00'), ('a', '\x07'), ('b', '\x08'), ('t', '\t'), ('n', '\n'), ('v', '\x0b'), ('f', '\x0c'), ('r', '\r'), ('e', '\x1b'),
    ('"', '"'), ('\\', '\\'), ('N', Char.ofNat 0x85), ('_', Char.ofNat 0xa0), ('L', Char.ofNat 0x2028), ('P', Char.ofNat 0x2029)]

/-- `yaml_emitter_write_double_quoted`, one character. -/
def yamlEscape (c : Char) : Str :=
  if yamlPrintable c && c != '"' && c != '\\' then [c]
  else match yamlEscapes.find? (·.2 == c) with
    | some e => ['\\', e.1]
    | none =>
      if c.toNat ≤ 0xff then '\\' :: 'x' :: yamlHex 2 c.toNat
      else if c.toNat ≤ 0xffff then '\\' :: 'u' :: yamlHex 4 c.toNat
      else '\\' :: 'U' :: yamlHex 8 c.toNat

/-- `yaml_emitter_write_double_quoted`. -/
def yamlDouble (s : Str) : Str := '"' :: (s.flatMap yamlEscape ++ ['"'])

/-- The lines of a text. -/
def yamlSplit (line : Str) : Str → List Str
  | [] => if line = [] then [] else [line]
  | c :: r => if c = '\n' then line :: yamlSplit [] r else yamlSplit (line ++ [c]) r

/-- A text of lines. -/
def yamlJoin (l : List Str) : Str := l.flatMap (· ++ ['\n'])

/-- White space is last in a line. -/
def spaceBreak : Str → Bool
  | [] => false
  | c :: r => (c == ' ' && (match r with
    | [] => true
    | d :: _ => d == '\n')) || spaceBreak r

/-- `yaml_emitter_analyze_scalar`, `block_allowed`. -/
def literalAllowed (s : Str) : Bool := s.all (fun c => yamlPrintable c || c == '\n') && !spaceBreak s

/-- `yaml_emitter_write_block_scalar_hints`, the indentation. -/
def literalHint : Str → Str
  | c :: _ => if c = ' ' ∨ c = '\n' then c!"2" else []
  | [] => []

/-- `yaml_emitter_write_block_scalar_hints`, the ends of lines at the end. -/
def literalChomp (s : Str) : Str :=
  match s.reverse with
  | ['\n'] => c!"+"
  | '\n' :: '\n' :: _ => c!"+"
  | '\n' :: _ => []
  | _ => c!"-"

/-- A text that is not plain (`yaml_emitter_select_scalar_style`): what is on the line, and the lines below it. -/
def quotedForm (s : Str) : Str × List Str :=
  if '\n' ∈ s then
    if literalAllowed s then ('|' :: (literalHint s ++ literalChomp s), yamlSplit [] s) else (yamlDouble s, [])
  else if s.all yamlPrintable then (yamlSingle s, []) else (yamlDouble s, [])

/-- A text that may be plain. -/
def freeForm (s : Str) : Str × List Str := if plainAllowed s then (s, []) else quotedForm s

/-! ## Writing documents -/

/-- A character is put before what is on the first line. -/
def markLine (n : Nat) (c : Char) : List Str → List Str
  | [] => []
  | l :: r => (yamlPad n ++ c :: l.drop (n + 1)) :: r

/-- The lines of a literal scalar. -/
def literalLines (m : Nat) (ls : List Str) : List Str := ls.map fun l => if l = [] then [] else yamlPad m ++ l

/-- `yaml_emitter_check_simple_key`: at most 128 bytes on one line. -/
def simpleText (s : Str) : Bool :=
  s.all (fun c => c != '\n' && c != '\r' && c.toNat != 0x85 && c.toNat != 0x2028 && c.toNat != 0x2029) && (utf8 s).length ≤ 128

/-- A key that is written before its value: none if it is not simple. -/
def YamlNode.keyText : YamlNode → Option Str
  | .plain s => if simpleText s then some s else none
  | .free s => if simpleText s then some (freeForm s).1 else none
  | .quoted s => if simpleText s then some (quotedForm s).1 else none
  | _ => none

mutual
/-- The lines of a node at a column. -/
def YamlNode.lines : YamlNode → Nat → List Str
  | .plain s, m => [yamlPad m ++ s]
  | .free s, m => (yamlPad m ++ (freeForm s).1) :: literalLines m (freeForm s).2
  | .quoted s, m => (yamlPad m ++ (quotedForm s).1) :: literalLines m (quotedForm s).2
  | .seq l, m => if l.isEmpty then [yamlPad m ++ c!"[]"] else YamlNode.seqLines l m
  | .map l, m => if l.isEmpty then [yamlPad m ++ c!"{}"] else YamlNode.mapLines l m
  | .tagged _ v, m => v.lines m
/-- The lines of a key, of a mapping with this indentation, and its value. -/
def YamlNode.afterKey : YamlNode → Nat → Str → List Str
  | .plain s, _, k => [k ++ (c!": " ++ s)]
  | .free s, n, k => (k ++ (c!": " ++ (freeForm s).1)) :: literalLines (n + 2) (freeForm s).2
  | .quoted s, n, k => (k ++ (c!": " ++ (quotedForm s).1)) :: literalLines (n + 2) (quotedForm s).2
  | .seq l, n, k => if l.isEmpty then [k ++ c!": []"] else (k ++ c!":") :: YamlNode.seqLines l n
  | .map l, n, k => if l.isEmpty then [k ++ c!": {}"] else (k ++ c!":") :: YamlNode.mapLines l (n + 2)
  | .tagged _ v, n, k => v.afterKey n k
/-- `yaml_emitter_emit_block_sequence_item`. -/
def YamlNode.seqLines : List YamlNode → Nat → List Str
  | [], _ => []
  | v :: r, n => markLine n '-' (v.lines (n + 2)) ++ YamlNode.seqLines r n
/-- `yaml_emitter_emit_block_mapping_key` and `yaml_emitter_emit_block_mapping_value`. -/
def YamlNode.mapLines : List (YamlNode × YamlNode) → Nat → List Str
  | [], _ => []
  | (k, v) :: r, n =>
    (match k.keyText with
      | some t => v.afterKey n (yamlPad n ++ t)
      | none => markLine n '?' (k.lines (n + 2)) ++ markLine n ':' (v.lines (n + 2))) ++ YamlNode.mapLines r n
end

/-! ## Reading scalars -/

/-- White space and a comment, possibly none of them. -/
def lineEnd (s : Str) : Bool :=
  match s.dropWhile (· == ' ') with
  | [] => true
  | c :: _ => c == '#' && s.head? == some ' '

/-- A text in single quotes, after the first one. -/
def readSingle : Str → Option (Str × Str)
  | [] => none
  | '\'' :: '\'' :: r => (readSingle r).map fun x => ('\'' :: x.1, x.2)
  | c :: r => if c = '\'' then some ([], r) else (readSingle r).map fun x => (c :: x.1, x.2)

/-- A character by its number in hexadecimal digits. -/
def hexChar (ds : Str) : Option Char :=
  if ds.all (fun c => (hexVal c).isSome) ∧ (tomlNat 16 ds).isValidChar then some (Char.ofNat (tomlNat 16 ds)) else none

/-- The escapes of one character, with two that are never written. -/
def readEscape (c : Char) : Option Char :=
  if c = ' ' ∨ c = '/' then some c else (yamlEscapes.find? (·.1 == c)).map (·.2)

/-- A text in double quotes, after the first one. -/
def readDouble : Str → Option (Str × Str)
  | [] => none
  | '\\' :: 'x' :: a :: b :: r => (hexChar [a, b]).bind fun c => (readDouble r).map fun x => (c :: x.1, x.2)
  | '\\' :: 'u' :: a :: b :: c :: d :: r => (hexChar [a, b, c, d]).bind fun c => (readDouble r).map fun x => (c :: x.1, x.2)
  | '\\' :: 'U' :: a :: b :: c :: d :: e :: f :: g :: h :: r =>
    (hexChar [a, b, c, d, e, f, g, h]).bind fun c => (readDouble r).map fun x => (c :: x.1, x.2)
  | '\\' :: c :: r => (readEscape c).bind fun c => (readDouble r).map fun x => (c :: x.1, x.2)
  | c :: r => if c = '"' then some ([], r) else if c = '\\' then none else (readDouble r).map fun x => (c :: x.1, x.2)

/-- The text before a comment. -/
def beforeComment : Str → Str
  | [] => []
  | c :: r => if c = ' ' ∧ r.head? = some '#' then [] else c :: beforeComment r

/-- A text without spaces at its end. -/
def trimEnd (s : Str) : Str := (s.reverse.dropWhile (· == ' ')).reverse

/-- A plain scalar. -/
def readPlain (s : Str) : Option YamlNode := if plainAllowed s then some (.plain s) else none

/-- The length of the indentation. -/
def indentOf (l : Str) : Nat := (l.takeWhile (· == ' ')).length

/-- What comes after the indentation. -/
def bodyOf (l : Str) : Str := l.dropWhile (· == ' ')

/-- A line of white space. -/
def blankLine (l : Str) : Bool := l.all (· == ' ')

/-- The lines of a literal scalar with some indentation, and the lines after it. -/
def takeLiteral (k : Nat) : List Str → List Str × List Str
  | [] => ([], [])
  | l :: r =>
    if k ≤ indentOf l then (l.drop k :: (takeLiteral k r).1, (takeLiteral k r).2)
    else if blankLine l then ([] :: (takeLiteral k r).1, (takeLiteral k r).2)
    else ([], l :: r)

/-- Lines without the empty ones at the end. -/
def dropEmptyEnd (l : List Str) : List Str := (l.reverse.dropWhile (· == [])).reverse

/-- The text of the lines of a literal scalar. -/
def literalText (chomp : Option Char) (l : List Str) : Str :=
  if chomp = some '+' then yamlJoin l
  else if chomp = some '-' then (yamlJoin (dropEmptyEnd l)).dropLast
  else yamlJoin (dropEmptyEnd l)

/-- A sign in the header of a literal scalar. -/
def takeChomp : Str → Option Char × Str
  | c :: r => if c = '+' ∨ c = '-' then (some c, r) else (none, c :: r)
  | [] => (none, [])

/-- A digit in the header of a literal scalar. -/
def takeHint : Str → Option Nat × Str
  | c :: r => if '1' ≤ c ∧ c ≤ '9' then (some (c.toNat - 48), r) else (none, c :: r)
  | [] => (none, [])

/-- The header of a literal scalar: sign and digit, in any order. -/
def literalHeader (s : Str) : Option (Option Char × Option Nat) :=
  if (takeChomp s).1.isSome then
    if lineEnd (takeHint (takeChomp s).2).2 then some ((takeChomp s).1, (takeHint (takeChomp s).2).1) else none
  else if lineEnd (takeChomp (takeHint s).2).2 then some ((takeChomp (takeHint s).2).1, (takeHint s).1) else none

/-- The indentation of a literal scalar in a block where columns less than `n` are not: given, or that of the first line. -/
def literalIndent (n : Nat) (hint : Option Nat) (r : List Str) : Option Nat :=
  match hint with
  | some d => some (n - 1 + d)
  | none => match r with
    | [] => none
    | l :: _ => if blankLine l ∨ indentOf l < n then none else some (indentOf l)

/-- A literal scalar, after its first character. -/
def readLiteral (n : Nat) (s : Str) (r : List Str) : Option (YamlNode × List Str) :=
  (literalHeader s).bind fun h => (literalIndent n h.2 r).map fun k =>
    (.quoted (literalText h.1 (takeLiteral k r).1), (takeLiteral k r).2)

/-! ## Reading collections within brackets -/

/-- The characters that end a plain scalar within brackets. -/
def flowStops : Str := [',', '[', ']', '{', '}']

/-- A plain scalar within brackets, with white space after it, and what comes after it (`yaml_parser_scan_plain_scalar`). -/
def flowWord : Str → Str × Str
  | [] => ([], [])
  | c :: r => if c ∈ flowStops ∨ (c = ':' ∧ blankNext r) then ([], c :: r) else (c :: (flowWord r).1, (flowWord r).2)

/-- A plain scalar within brackets. Question marks are not modelled. -/
def flowPlain (w : Str) : Option YamlNode := if '?' ∈ w ∨ w.head? = some ':' then none else readPlain (trimEnd w)

/-- What is after a colon. -/
def colonNext : Str → Option Str
  | c :: r => if c = ':' then some r else none
  | [] => none

/-- A key within brackets, of any length, and what is after its colon. -/
def flowKeyForm (b : Str) : Option (YamlNode × Str) :=
  match b with
  | '\'' :: t => (readSingle t).bind fun x => (colonNext (bodyOf x.2)).map fun r => (.quoted x.1, r)
  | '"' :: t => (readDouble t).bind fun x => (colonNext (bodyOf x.2)).map fun r => (.quoted x.1, r)
  | b => (flowPlain (flowWord b).1).bind fun k => (colonNext (flowWord b).2).map fun r => (k, r)

/-- A key within brackets, and what is after its colon. -/
def flowKey (b : Str) : Option (YamlNode × Str) :=
  (flowKeyForm b).bind fun x => if b.length ≤ x.2.length + 1025 then some x else none

/-- What comes after an item or an entry: a comma and more of them, or the end. -/
def flowNext {α : Type} (close : Char) (v : α) (more : Str → Option (List α × Str)) (s : Str) : Option (List α × Str) :=
  match bodyOf s with
  | c :: r => if c = ',' then (more r).map fun y => (v :: y.1, y.2) else if c = close then some ([v], r) else none
  | [] => none

mutual
/-- A node within brackets, and what is after it on the line. -/
def readFlow : Nat → Str → Option (YamlNode × Str)
  | 0, _ => none
  | f + 1, s => match bodyOf s with
    | '\'' :: t => (readSingle t).map fun x => (.quoted x.1, x.2)
    | '"' :: t => (readDouble t).map fun x => (.quoted x.1, x.2)
    | '[' :: t => (readItems f t).map fun x => (.seq x.1, x.2)
    | '{' :: t => (readPairs f t).map fun x => (.map x.1, x.2)
    | t => (flowPlain (flowWord t).1).map fun v => (v, (flowWord t).2)
/-- The items of a sequence, after its bracket (`yaml_parser_parse_flow_sequence_entry`). Items that are pairs are not modelled. -/
def readItems : Nat → Str → Option (List YamlNode × Str)
  | 0, _ => none
  | f + 1, s => if (bodyOf s).head? = some ']' then some ([], (bodyOf s).tail)
    else (readFlow f s).bind fun x => flowNext ']' x.1 (readItems f) x.2
/-- The entries of a mapping, after its brace (`yaml_parser_parse_flow_mapping_key`). Keys that are collections and values that are
missing are not modelled. -/
def readPairs : Nat → Str → Option (List (YamlNode × YamlNode) × Str)
  | 0, _ => none
  | f + 1, s => if (bodyOf s).head? = some '}' then some ([], (bodyOf s).tail)
    else (flowKey (bodyOf s)).bind fun k => (readFlow f k.2).bind fun v => flowNext '}' (k.1, v.1) (readPairs f) v.2
end

/-- What stands on a line in a block where columns less than `n` are not, and the lines after it. -/
def readScalar (n : Nat) (t : Str) (r : List Str) : Option (YamlNode × List Str) :=
  match t with
  | '\'' :: t => (readSingle t).bind fun x => if lineEnd x.2 then some (.quoted x.1, r) else none
  | '"' :: t => (readDouble t).bind fun x => if lineEnd x.2 then some (.quoted x.1, r) else none
  | '|' :: t => readLiteral n t r
  | '[' :: t => (readItems (2 * t.length + 1) t).bind fun x => if lineEnd x.2 then some (.seq x.1, r) else none
  | '{' :: t => (readPairs (2 * t.length + 1) t).bind fun x => if lineEnd x.2 then some (.map x.1, r) else none
  | t => (readPlain (trimEnd (beforeComment t))).map fun v => (v, r)

/-- What is before the first colon with white space after it. -/
def splitKey : Str → Option (Str × Str)
  | [] => none
  | c :: r => if c = ':' ∧ blankNext r then some ([], r) else (splitKey r).map fun x => (c :: x.1, x.2)

/-- What is after spaces and a colon with white space after it. -/
def afterColon (s : Str) : Option Str :=
  match s.dropWhile (· == ' ') with
  | c :: r => if c = ':' ∧ blankNext r then some r else none
  | [] => none

/-- A key that is before its value, of any length, and the rest of the line. -/
def keyForm (b : Str) : Option (YamlNode × Str) :=
  match b with
  | '\'' :: t => (readSingle t).bind fun x => (afterColon x.2).map fun r => (.quoted x.1, r)
  | '"' :: t => (readDouble t).bind fun x => (afterColon x.2).map fun r => (.quoted x.1, r)
  | b => (splitKey b).bind fun x => (readPlain (trimEnd x.1)).map fun k => (k, x.2)

/-- A key that is before its value, with at most 1024 characters before the colon (`yaml_simple_key_is_valid`), and the rest of the
line. -/
def scanKey (b : Str) : Option (YamlNode × Str) :=
  (keyForm b).bind fun x => if b.length ≤ x.2.length + 1025 then some x else none

/-! ## Reading documents -/

/-- A character with white space after it. -/
def hasMark (c : Char) : Str → Bool
  | a :: r => a == c && blankNext r
  | [] => false

/-- The line with white space in place of its first character. -/
def unmark (l : Str) : Str := yamlPad (indentOf l + 1) ++ (bodyOf l).tail

/-- White space or a comment. -/
def emptyLine (l : Str) : Bool :=
  match bodyOf l with
  | [] => true
  | c :: _ => c == '#'

/-- The value of a simple key of a mapping with indentation `m`. -/
def readAfterKey (node : List Str → Option (YamlNode × List Str)) (seq : List Str → Option (List YamlNode × List Str)) (m : Nat)
    (t : Str) (r : List Str) : Option (YamlNode × List Str) :=
  if lineEnd t then
    match r.dropWhile emptyLine with
    | [] => some (.plain [], [])
    | l :: r' => if indentOf l = m ∧ hasMark '-' (bodyOf l) then (seq (l :: r')).map fun x => (.seq x.1, x.2) else node (l :: r')
  else readScalar (m + 1) (t.dropWhile (· == ' ')) r

/-- The value of a key that is not simple. -/
def readColon (node : List Str → Option (YamlNode × List Str)) (m : Nat) (ls : List Str) : Option (YamlNode × List Str) :=
  match ls.dropWhile emptyLine with
  | [] => some (.plain [], [])
  | l :: r => if indentOf l = m ∧ hasMark ':' (bodyOf l) then node (unmark l :: r) else some (.plain [], l :: r)

mutual
/-- A node in columns from `n` on. -/
def readNode : Nat → Nat → List Str → Option (YamlNode × List Str)
  | 0, _, _ => none
  | f + 1, n, ls => match ls.dropWhile emptyLine with
    | [] => some (.plain [], [])
    | l :: r =>
      if indentOf l < n then some (.plain [], l :: r)
      else if hasMark '-' (bodyOf l) then (readSeq f (indentOf l) (l :: r)).map fun x => (.seq x.1, x.2)
      else if hasMark '?' (bodyOf l) || (scanKey (bodyOf l)).isSome then (readMap f (indentOf l) (l :: r)).map fun x => (.map x.1, x.2)
      else readScalar n (bodyOf l) r
/-- The items of a sequence at a column. -/
def readSeq : Nat → Nat → List Str → Option (List YamlNode × List Str)
  | 0, _, _ => none
  | f + 1, m, ls => match ls.dropWhile emptyLine with
    | [] => some ([], [])
    | l :: r =>
      if indentOf l = m ∧ hasMark '-' (bodyOf l) then
        (readNode f (m + 1) (unmark l :: r)).bind fun x => (readSeq f m x.2).map fun y => (x.1 :: y.1, y.2)
      else if m < indentOf l then none
      else some ([], l :: r)
/-- The entries of a mapping at a column. -/
def readMap : Nat → Nat → List Str → Option (List (YamlNode × YamlNode) × List Str)
  | 0, _, _ => none
  | f + 1, m, ls => match ls.dropWhile emptyLine with
    | [] => some ([], [])
    | l :: r =>
      if indentOf l < m then some ([], l :: r)
      else if m < indentOf l then none
      else if hasMark '?' (bodyOf l) then
        (readNode f (m + 1) (unmark l :: r)).bind fun k => (readColon (readNode f (m + 1)) m k.2).bind fun v =>
          (readMap f m v.2).map fun y => ((k.1, v.1) :: y.1, y.2)
      else
        (scanKey (bodyOf l)).bind fun k => (readAfterKey (readNode f (m + 1)) (readSeq f m) m k.2 r).bind fun v =>
          (readMap f m v.2).map fun y => ((k.1, v.1) :: y.1, y.2)
end

/-- The mapping that a node is. -/
def YamlNode.mapping : YamlNode → Option (List (YamlNode × YamlNode))
  | .map l => some l
  | _ => none

mutual
/-- How deep sequences and mappings are nested. -/
def YamlNode.depth : YamlNode → Nat
  | .plain _ => 0
  | .free _ => 0
  | .quoted _ => 0
  | .seq l => YamlNode.depthSeq l + 1
  | .map l => YamlNode.depthMap l + 1
  | .tagged _ v => v.depth
/-- See `YamlNode.depth`. -/
def YamlNode.depthSeq : List YamlNode → Nat
  | [] => 0
  | v :: r => max v.depth (YamlNode.depthSeq r)
/-- See `YamlNode.depth`. -/
def YamlNode.depthMap : List (YamlNode × YamlNode) → Nat
  | [] => 0
  | (k, v) :: r => max (max k.depth v.depth) (YamlNode.depthMap r)
end

mutual
/-- Equality of nodes. -/
def YamlNode.same : YamlNode → YamlNode → Bool
  | .plain s, .plain t => s == t
  | .free s, .free t => s == t
  | .quoted s, .quoted t => s == t
  | .seq l, .seq r => YamlNode.sameSeq l r
  | .map l, .map r => YamlNode.sameMap l r
  | .tagged t v, .tagged u w => t == u && v.same w
  | _, _ => false
/-- See `YamlNode.same`. -/
def YamlNode.sameSeq : List YamlNode → List YamlNode → Bool
  | [], [] => true
  | v :: l, w :: r => v.same w && YamlNode.sameSeq l r
  | _, _ => false
/-- See `YamlNode.same`. -/
def YamlNode.sameMap : List (YamlNode × YamlNode) → List (YamlNode × YamlNode) → Bool
  | [], [] => true
  | (k, v) :: l, (j, w) :: r => k.same j && v.same w && YamlNode.sameMap l r
  | _, _ => false
end

/-- Line breaks of other systems (`READ_LINE` in scanner.c). -/
def yamlBreaks : Str → Str
  | '\r' :: '\n' :: r => '\n' :: yamlBreaks r
  | c :: r => (if c = '\r' then '\n' else c) :: yamlBreaks r
  | [] => []

/-- The line before a document (`yaml_parser_fetch_document_indicator`), with nothing else on it. -/
def startsDocument (l : Str) : Bool := l.take 3 == c!"---" && lineEnd (l.drop 3)

/-- The lines after the one before the document. -/
def afterMarker (ls : List Str) : List Str :=
  match ls.dropWhile emptyLine with
  | [] => ls
  | l :: r => if startsDocument l then r else ls

/-- A text that consists of whole lines; `serde_yaml` reads at most 128 levels (`recursion_check` in de.rs). -/
def readWhole (s : Str) : Option (List (YamlNode × YamlNode)) :=
  (readNode (3 * s.length + 3) 0 (afterMarker (yamlSplit [] s))).bind fun x =>
    if x.2.all emptyLine ∧ x.1.depth ≤ 128 then x.1.mapping else none

/-- The last line has its line break. -/
def endedText (s : Str) : Bool := s.getLast? == none || s.getLast? == some '\n'

/-- A text with the line breaks of Unix. If the last line is without its line break, literal texts that go to the end are not
modelled (`libyaml` reads them without the line break, too): a comment at the end must not change anything. -/
def readBreaks (s : Str) : Option (List (YamlNode × YamlNode)) :=
  if endedText s then readWhole s
  else (readWhole (s ++ c!"\n")).bind fun l => (readWhole (s ++ c!" #\n")).bind fun l' => if YamlNode.sameMap l l' then some l else none

/-- The layout of YAML documents. -/
def blockLayout : YamlLayout where
  write l := yamlJoin ((YamlNode.map l).lines 0)
  read s := if (yamlBreaks s).all (fun c => yamlPrintable c || c == '\n') then readBreaks (yamlBreaks s) else none

end Rops
