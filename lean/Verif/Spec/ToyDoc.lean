import Verif.Spec.Document
import Verif.Spec.ToyFile
import Verif.Lemmas.Value
import Verif.Lemmas.Tree
import Verif.Lemmas.Dates
/-! Parsers and a text syntax for JSON documents, used only in examples and witnesses. -/

namespace Rops.Toy
open Rops Spec

/-- Parsers: every recipient and region is accepted, and every pattern without '('. -/
def docOps : DocOps where
  parseDate := chronoDate
  regexOk s := !s.contains '('
  arn := arns
  A := age

theorem docOps_date : docOps.parseDate = chronoDate := rfl

theorem docOps_laws : DocLaws docOps := by
  constructor
  rw [docOps_date]
  exact fun _ h => chronoDate_docText h

theorem env_clock (i : Nat) : Calendar (env.clock i) := by
  refine ⟨?_, ?_, ?_, ?_, ?_, ?_, ?_⟩ <;> simp only [env, daysInMonth] <;> first | omega | decide | skip
  all_goals simp

/-! ## Texts -/

/-- A number and a point. -/
def natText (n : Nat) : Str := Nat.toDigits 10 n ++ ['.']

/-- A text with its length. -/
def strText (s : Str) : Str := natText s.length ++ s

mutual
/-- A text for a JSON value. -/
def treeText : Json → Str
  | .null => ['n']
  | .leaf (.bool true) => ['t']
  | .leaf (.bool false) => ['f']
  | .leaf (.str s) => 's' :: strText s
  | .leaf (.num (.posInt n)) => 'p' :: natText n.toNat
  | .leaf (.num (.negInt n)) => 'm' :: strText (showInt n)
  | .leaf (.num (.float s)) => 'd' :: strText s
  | .seq l => '[' :: seqText l
  | .map m => '{' :: mapText m
/-- See `treeText`. -/
def seqText : List Json → Str
  | [] => [']']
  | t :: r => ',' :: (treeText t ++ seqText r)
/-- See `treeText`. -/
def mapText : List (Str × Json) → Str
  | [] => ['}']
  | (k, t) :: r => ',' :: (strText k ++ (treeText t ++ mapText r))
end

def parseNatText (s : Str) : Option (Nat × Str) :=
  match splitOnce '.' s with
  | none => none
  | some (a, r) => match parseNat a with
    | some n => some (n, r)
    | none => none

def parseStrText (s : Str) : Option (Str × Str) :=
  match parseNatText s with
  | some (n, r) => some (r.take n, r.drop n)
  | none => none

mutual
/-- Reads a value; the number bounds the nesting. -/
def parseTree : Nat → Str → Option (Json × Str)
  | 0, _ => none
  | _ + 1, [] => none
  | n + 1, c :: r =>
    if c = 'n' then some (.null, r)
    else if c = 't' then some (.leaf (.bool true), r)
    else if c = 'f' then some (.leaf (.bool false), r)
    else if c = 's' then (parseStrText r).map fun (s, r) => (.leaf (.str s), r)
    else if c = 'p' then (parseNatText r).map fun (k, r) => (.leaf (.num (.posInt (UInt64.ofNat k))), r)
    else if c = 'm' then (parseStrText r).bind fun (s, r) => (parseInt s).map fun k => (.leaf (.num (.negInt k)), r)
    else if c = 'd' then (parseStrText r).map fun (s, r) => (.leaf (.num (.float s)), r)
    else if c = '[' then (parseSeq n r).map fun (l, r) => (.seq l, r)
    else if c = '{' then (parseMap n r).map fun (m, r) => (.map m, r)
    else none
/-- See `parseTree`. -/
def parseSeq : Nat → Str → Option (List Json × Str)
  | 0, _ => none
  | _ + 1, [] => none
  | n + 1, c :: r =>
    if c = ',' then match parseTree n r with
      | none => none
      | some (t, r) => (parseSeq n r).map fun (l, r) => (t :: l, r)
    else if c = ']' then some ([], r)
    else none
/-- See `parseTree`. -/
def parseMap : Nat → Str → Option (List (Str × Json) × Str)
  | 0, _ => none
  | _ + 1, [] => none
  | n + 1, c :: r =>
    if c = ',' then match parseStrText r with
      | none => none
      | some (k, r) => match parseTree n r with
        | none => none
        | some (t, r) => (parseMap n r).map fun (l, r) => ((k, t) :: l, r)
    else if c = '}' then some ([], r)
    else none
end

theorem parseNatText_append (n : Nat) (r : Str) : parseNatText (natText n ++ r) = some (n, r) := by
  have hd : '.' ∉ Nat.toDigits 10 n := by
    intro h
    have := Nat.isDigit_of_mem_toDigits (by omega) (by omega) h
    revert this
    decide
  unfold parseNatText natText
  rw [List.append_assoc, List.singleton_append, splitOnce_append _ hd]
  simp only [parseNat_toDigits]

theorem parseStrText_append (s r : Str) : parseStrText (strText s ++ r) = some (s, r) := by
  unfold parseStrText strText
  rw [List.append_assoc, parseNatText_append]
  simp

theorem parse_text :
    (∀ t : Json, ∀ n r, (treeText t).length ≤ n → parseTree n (treeText t ++ r) = some (t, r)) ∧
    (∀ l : List Json, ∀ n r, (seqText l).length ≤ n → parseSeq n (seqText l ++ r) = some (l, r)) ∧
    (∀ m : List (Str × Json), ∀ n r, (mapText m).length ≤ n → parseMap n (mapText m ++ r) = some (m, r)) := by
  have hpos : ∀ n : Nat, ∀ x : Nat, x + 1 ≤ n → ∃ k, n = k + 1 ∧ x ≤ k := fun n x h => ⟨n - 1, by omega, by omega⟩
  apply Tree.induct
  · intro l ih n r h
    simp only [treeText, List.length_cons] at h
    obtain ⟨k, rfl, hk⟩ := hpos _ _ h
    simp only [treeText, List.cons_append, parseTree, ih k r hk]
    simp
  · intro l ih n r h
    simp only [treeText, List.length_cons] at h
    obtain ⟨k, rfl, hk⟩ := hpos _ _ h
    simp only [treeText, List.cons_append, parseTree, ih k r hk]
    simp
  · intro n r h
    simp only [treeText, List.length_cons] at h
    obtain ⟨k, rfl, hk⟩ := hpos _ _ h
    simp [treeText, parseTree]
  · intro a n r h
    have : ∃ c x, treeText (.leaf a) = c :: x := by
      cases a with
      | bool b => cases b <;> exact ⟨_, _, by simp only [treeText]; rfl⟩
      | num a => cases a <;> exact ⟨_, _, by simp only [treeText]; rfl⟩
      | str s => exact ⟨_, _, by simp only [treeText]; rfl⟩
    obtain ⟨c, x, hx⟩ := this
    rw [hx, List.length_cons] at h
    obtain ⟨k, rfl, hk⟩ := hpos _ _ h
    cases a with
    | bool b => cases b <;> simp [treeText, parseTree]
    | str s => simp [treeText, parseTree, parseStrText_append]
    | num a =>
      cases a with
      | posInt a => simp [treeText, parseTree, parseNatText_append]
      | negInt a => simp [treeText, parseTree, parseStrText_append, parseInt_showInt]
      | float s => simp [treeText, parseTree, parseStrText_append]
  · intro n r h
    simp only [seqText, List.length_cons] at h
    obtain ⟨k, rfl, hk⟩ := hpos _ _ h
    simp [seqText, parseSeq]
  · intro t l h1 h2 n r h
    simp only [seqText, List.length_cons, List.length_append] at h
    obtain ⟨k, rfl, hk⟩ := hpos _ _ h
    simp only [seqText, List.cons_append, List.append_assoc, parseSeq, if_true, h1 k _ (by omega), h2 k _ (by omega)]
    rfl
  · intro n r h
    simp only [mapText, List.length_cons] at h
    obtain ⟨k, rfl, hk⟩ := hpos _ _ h
    simp [mapText, parseMap]
  · intro key t l h1 h2 n r h
    simp only [mapText, List.length_cons, List.length_append] at h
    obtain ⟨k, rfl, hk⟩ := hpos _ _ h
    simp only [mapText, List.cons_append, List.append_assoc, parseMap, if_true, parseStrText_append,
      h1 k _ (by omega), h2 k _ (by omega)]
    rfl

/-- The syntax. -/
def jsonText : TextOps DocFormat.json where
  render := mapText
  parse s := match parseMap s.length s with
    | some (m, []) => some m
    | _ => none

theorem jsonText_laws : TextLaws jsonText fun _ => True where
  parse_render := by
    intro d _
    have h := parse_text.2.2 d (mapText d).length [] (Nat.le_refl _)
    rw [List.append_nil] at h
    show (match parseMap (mapText d).length (mapText d) with | some (m, []) => some m | _ => none) = some d
    rw [h]

end Rops.Toy
