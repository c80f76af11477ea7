import Verif.Spec.YamlGrammar
/-!
# Specification: how YAML documents are written

Which of the texts of a document (`Spec.YamlText`) is the one that is written: which style each scalar has, which characters are escaped and how,
where lines begin. Only for floats there is a choice: whether the decimal has a point or an exponent.
-/

namespace Rops.Spec

/-! ## Scalars -/

/-- A character that may stand between double quotes as it is. -/
def AsItIs (c : Char) : Prop := YamlVisible c ∧ c ≠ '"' ∧ c ≠ '\\'

/-- A character between double quotes: as it is, or by a letter if there is one for it, or by its number with as few digits as can be, in
capitals. -/
inductive ShownChar : Char → Str → Prop
  | self {c : Char} : AsItIs c → ShownChar c [c]
  | letter {c e : Char} : ¬ AsItIs c → (e, c.toNat) ∈ yamlLetters → ShownChar c ['\\', e]
  | number {c e : Char} {w : Nat} {ds : Str} : ¬ AsItIs c → (∀ e, (e, c.toNat) ∉ yamlLetters) → (e, w) ∈ yamlWidths → ds.length = w →
    NumberIn 16 ds c.toNat → (∀ d ∈ ds, ¬ ('a' ≤ d ∧ d ≤ 'f')) → (∀ e' w', (e', w') ∈ yamlWidths → c.toNat < 16 ^ w' → w ≤ w') →
    ShownChar c ('\\' :: e :: ds)

/-- What is written between double quotes. -/
inductive ShownDouble : Str → Str → Prop
  | nil : ShownDouble [] []
  | cons {c : Char} {x q s : Str} : ShownChar c x → ShownDouble q s → ShownDouble (x ++ q) (c :: s)

/-- A text that can be a literal scalar: nothing in it must be escaped, and no space is last in a line. -/
def Blocky (s : Str) : Prop := (∀ c ∈ s, YamlVisible c ∨ c = '\n') ∧ (∀ a b, s ≠ a ++ (c!" \n" ++ b)) ∧ ∀ a, s ≠ a ++ c!" "

/-- The sign of a literal scalar and its lines: no sign if one line break is last and it is not all, "-" if none is last. -/
inductive ShownLiteral (s : Str) : Str → List Str → Prop
  | strip {ls : List Str} : (∀ a, s ≠ a ++ c!"\n") → LinesText (s ++ c!"\n") ls → ShownLiteral s c!"-" ls
  | clip {a : Str} {c : Char} {ls : List Str} : s = a ++ [c, '\n'] → c ≠ '\n' → LinesText s ls → ShownLiteral s c!"" ls
  | keep {ls : List Str} : (s = c!"\n" ∨ ∃ a, s = a ++ c!"\n\n") → LinesText s ls → ShownLiteral s c!"+" ls

/-- The digit of a literal scalar: needed if the column of the first line is not that of its first character. -/
def ShownHint (s h : Str) : Prop :=
  ((∃ r, s = ' ' :: r ∨ s = '\n' :: r) ∧ h = c!"2") ∨ ((∀ r, s ≠ ' ' :: r ∧ s ≠ '\n' :: r) ∧ h = c!"")

/-- A text that is not plain: what is on its line, and what is on the lines below. It is in single quotes if it has one line and nothing must be
escaped, literal if it has line breaks and can be, and else in double quotes. -/
inductive QuotedShown (s : Str) : Str → List Str → Prop
  | single {q : Str} : (∀ c ∈ s, YamlVisible c) → SingleText q s → QuotedShown s ('\'' :: (q ++ c!"'")) []
  | literal {h sign : Str} {ls : List Str} : '\n' ∈ s → Blocky s → ShownHint s h → ShownLiteral s sign ls →
    QuotedShown s ('|' :: (h ++ sign)) ls
  | double {q : Str} : (∃ c ∈ s, ¬ YamlVisible c) → ('\n' ∈ s → ¬ Blocky s) → ShownDouble q s → QuotedShown s ('"' :: (q ++ c!"\"")) []

/-- A text that is written as a plain scalar: it is one, is read as itself, and no other program would take it for a truth value or a number. -/
def ShownPlain (s : Str) : Prop := BareText s ∧ YamlPlainText (some (.str s)) s ∧ ¬ OldTruth s ∧ ¬ ZerosFirst s

/-- Floats: words, or a sign and a decimal that is as short as possible. -/
inductive FloatShown : F64 → Str → Prop
  | nan : FloatShown .nan c!".nan"
  | infinite : FloatShown (.infinite false) c!".inf"
  | negative : FloatShown (.infinite true) c!"-.inf"
  | zero {neg : Bool} : FloatShown (.finite neg 0) ((if neg then c!"-" else c!"") ++ c!"0.0")
  | decimal {neg : Bool} {v n : Nat} {e : Int} {x : Str} : v ≠ 0 → DecimalText x n e → ShortestDecimal v n e →
    FloatShown (.finite neg v) ((if neg then c!"-" else c!"") ++ x)

/-- Scalars: what is on the line, and what is on the lines below. -/
inductive ScalarShown : Yaml → Str → List Str → Prop
  | null : ScalarShown .null c!"null" []
  | true : ScalarShown (.bool true) c!"true" []
  | false : ScalarShown (.bool false) c!"false" []
  | natural {n : UInt64} {t : Str} : NumberIn 10 t n.toNat → (t = c!"0" ∨ ∃ c r, t = c :: r ∧ c ≠ '0') → ScalarShown (.num (.posInt n)) t []
  | negative {n : Int64} {t : Str} {k : Nat} : NumberIn 10 t k → (∃ c r, t = c :: r ∧ c ≠ '0') → n.toInt = -(k : Int) →
    ScalarShown (.num (.negInt n)) ('-' :: t) []
  | float {f : F64} {t : Str} : InRange f → FloatShown f t → ScalarShown (.num (.float f.show)) t []
  | plain {s : Str} : ShownPlain s → ScalarShown (.str s) s []
  | quoted {s t : Str} {below : List Str} : ¬ ShownPlain s → QuotedShown s t below → ScalarShown (.str s) t below

/-- Lines below, at a column. Empty lines have no spaces. -/
inductive BelowLines (m : Nat) : List Str → List Str → Prop
  | nil : BelowLines m [] []
  | empty {cs ls : List Str} : BelowLines m cs ls → BelowLines m ([] :: cs) ([] :: ls)
  | line {c l : Str} {cs ls : List Str} : c ≠ [] → At m c l → BelowLines m cs ls → BelowLines m (c :: cs) (l :: ls)

/-! ## Collections -/

/-- A text that may be before a colon: without line breaks, those of Unicode too, and of 128 bytes at most. -/
def BriefText (s : Str) : Prop := (∀ c ∈ s, c.toNat ∉ [10, 13, 0x85, 0x2028, 0x2029]) ∧ (utf8 s).length ≤ 128

/-- A key that is before its colon. A text is judged before it is quoted. -/
def BriefKey : Yaml → Str → Prop
  | .str s, _ => BriefText s
  | _, t => BriefText t

/-- A key that is not. -/
def LongKey : Yaml → Prop
  | .str s => ¬ BriefText s
  | .seq _ => True
  | .map _ => True
  | .tagged _ _ => True
  | k => ∃ t, ScalarShown k t [] ∧ ¬ BriefText t

mutual
/-- The lines of a value at a column. -/
inductive NodeLines : Nat → Yaml → List Str → Prop
  | scalar {m : Nat} {v : Yaml} {t l : Str} {below ls : List Str} : ScalarShown v t below → At m t l → BelowLines m below ls →
    NodeLines m v (l :: ls)
  | noItems {m : Nat} {l : Str} : At m c!"[]" l → NodeLines m (.seq []) [l]
  | noEntries {m : Nat} {l : Str} : At m c!"{}" l → NodeLines m (.map []) [l]
  | seq {m : Nat} {r : List Yaml} {ls : List Str} : r ≠ [] → ItemLines m r ls → NodeLines m (.seq r) ls
  | map {m : Nat} {r : List (Yaml × Yaml)} {ls : List Str} : r ≠ [] → EntryLines m r ls → NodeLines m (.map r) ls
/-- The lines of the items of a sequence: each begins with a dash, two columns before what it is. -/
inductive ItemLines : Nat → List Yaml → List Str → Prop
  | nil {m : Nat} : ItemLines m [] []
  | cons {m : Nat} {v : Yaml} {r : List Yaml} {b l l' : Str} {ls rest : List Str} : NodeLines (m + 2) v (l :: ls) → At (m + 2) b l →
    At m (c!"- " ++ b) l' → ItemLines m r rest → ItemLines m (v :: r) (l' :: (ls ++ rest))
/-- The lines of the entries of a mapping: keys that are brief are before a colon, others after a question mark. -/
inductive EntryLines : Nat → List (Yaml × Yaml) → List Str → Prop
  | nil {m : Nat} : EntryLines m [] []
  | brief {m : Nat} {k v : Yaml} {r : List (Yaml × Yaml)} {t u l : Str} {ls rest : List Str} : ScalarShown k t [] → BriefKey k t →
    ValueLines m v u ls → At m (t ++ (c!":" ++ u)) l → EntryLines m r rest → EntryLines m ((k, v) :: r) (l :: (ls ++ rest))
  | long {m : Nat} {k v : Yaml} {r : List (Yaml × Yaml)} {a b k0 k1 v0 v1 : Str} {ks vs rest : List Str} :
    LongKey k → NodeLines (m + 2) k (k0 :: ks) → At (m + 2) a k0 → At m (c!"? " ++ a) k1 →
    NodeLines (m + 2) v (v0 :: vs) → At (m + 2) b v0 → At m (c!": " ++ b) v1 → EntryLines m r rest →
    EntryLines m ((k, v) :: r) (k1 :: (ks ++ (v1 :: (vs ++ rest))))
/-- A value after a colon, of a mapping at a column: what is on the line, and the lines below. Items are at the column of the mapping, entries two
columns after it. -/
inductive ValueLines : Nat → Yaml → Str → List Str → Prop
  | scalar {m : Nat} {v : Yaml} {t : Str} {below ls : List Str} : ScalarShown v t below → BelowLines (m + 2) below ls →
    ValueLines m v (c!" " ++ t) ls
  | noItems {m : Nat} : ValueLines m (.seq []) c!" []" []
  | noEntries {m : Nat} : ValueLines m (.map []) c!" {}" []
  | seq {m : Nat} {r : List Yaml} {ls : List Str} : r ≠ [] → ItemLines m r ls → ValueLines m (.seq r) c!"" ls
  | map {m : Nat} {r : List (Yaml × Yaml)} {ls : List Str} : r ≠ [] → EntryLines (m + 2) r ls → ValueLines m (.map r) c!"" ls
end

/-- No space is last. -/
def Trimmed (l : Str) : Prop := ∀ a, l ≠ a ++ c!" "

mutual
/-- A value without floats, which have one text then. -/
def NoFloats : Yaml → Prop
  | .num (.float _) => False
  | .seq l => NoFloatsSeq l
  | .map m => NoFloatsMap m
  | .tagged _ v => NoFloats v
  | _ => True
/-- See `NoFloats`. -/
def NoFloatsSeq : List Yaml → Prop
  | [] => True
  | v :: r => NoFloats v ∧ NoFloatsSeq r
/-- See `NoFloats`. -/
def NoFloatsMap : List (Yaml × Yaml) → Prop
  | [] => True
  | (k, v) :: r => NoFloats k ∧ NoFloats v ∧ NoFloatsMap r
end

end Rops.Spec
