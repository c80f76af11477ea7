import Verif.Model.Document
import Verif.Spec.File
/-!
# Specification vocabulary for documents
-/

namespace Rops.Spec

/-- Days of a month of the Gregorian calendar. -/
def daysInMonth (year : Int) (month : Nat) : Nat :=
  if month = 2 then (if year % 4 = 0 ∧ (year % 100 ≠ 0 ∨ year % 400 = 0) then 29 else 28)
  else if month = 4 ∨ month = 6 ∨ month = 9 ∨ month = 11 then 30 else 31

/-- A point in time of the years of `chrono`, possibly a leap second. -/
structure Calendar (t : Timestamp) : Prop where
  year : -262143 ≤ t.year ∧ t.year ≤ 262142
  month : 1 ≤ t.month ∧ t.month ≤ 12
  day : 1 ≤ t.day ∧ t.day ≤ daysInMonth t.year t.month
  hour : t.hour < 24
  minute : t.minute < 60
  second : t.second ≤ 60
  nano : t.nano < 1000000000

/-- What is assumed of the parsers: dates are read as they are written. -/
structure DocLaws (O : DocOps) : Prop where
  date : ∀ t, Calendar t → O.parseDate t.docText = some t

/-- The text of the key id is read as the key id. -/
def KeyWritable (O : DocOps) : (k : Kind) → k.Id → Prop
  | .age, id => O.A.parseRecipient id = some id
  | .kms, id => KeyArn.parse O.arn id.arn.toText = .ok id.arn

/-- Metadata all of whose parts can be written and read. -/
structure Writable {M : Type} (O : DocOps) (showMac : M → Str) (parseMac : Str → Option M) (md : Metadata M) : Prop where
  ids : ∀ k, (keyIds md.integration k).Nodup
  keys : ∀ k, ∀ id ∈ keyIds md.integration k, KeyWritable O k id
  created : ∀ k, ∀ u ∈ md.integration.units k, ∀ t, u.createdAt = some t → Calendar t
  modified : Calendar md.lastModified
  mac : parseMac (showMac md.mac) = some md.mac
  setting : ∀ p, md.partialEncryption = some p → p.ok O = true

/-- The metadata of an encrypted file can be written and read. -/
def EncWritable (O : DocOps) (C : Cipher) (md : Metadata EncValue) : Prop :=
  Writable O (fun e => e.toText C) (fun s => (EncValue.parse C s).toOption) md

/-- The keys of the top level of a map. -/
def topKeys {α : Type} (m : RMap α) : List Str := m.map Prod.fst

/-- What is assumed of the syntax of a format: the documents in `ok` are read, from the text
written for them, in the order in which the format writes. -/
structure TextLaws {D : DocFormat} (T : TextOps D) (ok : D.F.Map → Prop) : Prop where
  parse_render : ∀ d, ok d → T.parse (T.render d) = some (D.order d)

/-! ## The order of TOML -/

/-- Whether the tree is a map. -/
def isMap {α : Type} : Tree α → Bool
  | .map _ => true
  | _ => false

/-- Whether TOML writes the value in a section of its own: maps and non-empty sequences of
maps. -/
def isSection {α : Type} : Tree α → Bool
  | .map _ => true
  | .seq l => !l.isEmpty && l.all isMap
  | _ => false

mutual
/-- At every level that is written in sections the plain values come before the sections. -/
def ValuesFirst {α : Type} : Tree α → Prop
  | .map m => ValuesFirstMap m
  | .seq l => (!l.isEmpty && l.all isMap) = true → ValuesFirstSeq l
  | _ => True
/-- See `ValuesFirst`. -/
def ValuesFirstSeq {α : Type} : List (Tree α) → Prop
  | [] => True
  | t :: r => ValuesFirst t ∧ ValuesFirstSeq r
/-- See `ValuesFirst`. -/
def ValuesFirstMap {α : Type} : RMap α → Prop
  | [] => True
  | (_, t) :: r => (isSection t = true → ∀ e ∈ r, isSection e.2 = true) ∧ ValuesFirst t ∧ ValuesFirstMap r
end

mutual
/-- The tree with its entries in the order in which TOML writes them. -/
def tomlOrder {α : Type} : Tree α → Tree α
  | .map m => .map (tomlPlain m ++ tomlSections m)
  | .seq l => if !l.isEmpty && l.all isMap then .seq (tomlOrderSeq l) else .seq l
  | t => t
/-- See `tomlOrder`. -/
def tomlOrderSeq {α : Type} : List (Tree α) → List (Tree α)
  | [] => []
  | t :: r => tomlOrder t :: tomlOrderSeq r
/-- See `tomlOrder`. -/
def tomlSections {α : Type} : RMap α → RMap α
  | [] => []
  | (k, t) :: r => if isSection t then (k, tomlOrder t) :: tomlSections r else tomlSections r
/-- See `tomlOrder`. -/
def tomlPlain {α : Type} : RMap α → RMap α
  | [] => []
  | (k, t) :: r => if isSection t then tomlPlain r else (k, t) :: tomlPlain r
end

/-- The map in the order of TOML. -/
def tomlMapOrder {α : Type} (m : RMap α) : RMap α := tomlPlain m ++ tomlSections m

/-- What is left of a map after it was written to TOML together with metadata under the key
"sops" and read. -/
def tomlReread {α : Type} (m : RMap α) : RMap α := tomlMapOrder (m.filter fun e => e.1 != c!"sops")

end Rops.Spec
