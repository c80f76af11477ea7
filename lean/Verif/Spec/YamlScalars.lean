import Verif.Model.YamlScalars
import Verif.Spec.TomlGrammar
import Verif.Spec.Floats
/-!
# Specification of the scalars of YAML
-/

namespace Rops.Spec

/-- Integers: a sign, possibly none, and digits, with "0x", "0o" or "0b" before them or to base ten; the latter
have no zero before other digits. -/
def YamlIntText (n : Int) (s : Str) : Prop :=
  ∃ sign negative mark base ds m, SignOf sign negative ∧ s = sign ++ (mark ++ ds) ∧
    ((mark, base) ∈ [(c!"0x", 16), (c!"0o", 8), (c!"0b", 2), (c!"", 10)]) ∧ ds ≠ [] ∧ NumberIn base ds m ∧
    (base = 10 → ds = c!"0" ∨ ds.head? ≠ some '0') ∧ n = if negative then -(m : Int) else m

/-- Decimal digits with zeros before others: neither integers nor floats. -/
def ZerosFirst (s : Str) : Prop :=
  ∃ sign negative ds, SignOf sign negative ∧ s = sign ++ '0' :: ds ∧ ds ≠ [] ∧ ∀ c ∈ ds, '0' ≤ c ∧ c ≤ '9'

/-- A truth value of YAML 1.1: a word in small letters, in capitals, or with a capital first. -/
def OldTruth (s : Str) : Prop :=
  ∃ w ∈ [c!"y", c!"n", c!"yes", c!"no", c!"on", c!"off", c!"true", c!"false"],
    s = w ∨ s = w.map Char.toUpper ∨ s = (w.take 1).map Char.toUpper ++ w.drop 1

/-- Floats: as in Rust, if they are finite, and three words. -/
def YamlFloatText (f : F64) (s : Str) : Prop :=
  (f = .infinite false ∧ s ∈ [c!".inf", c!".Inf", c!".INF", c!"+.inf", c!"+.Inf", c!"+.INF"]) ∨
  (f = .infinite true ∧ s ∈ [c!"-.inf", c!"-.Inf", c!"-.INF"]) ∨ (f = .nan ∧ s ∈ [c!".nan", c!".NaN", c!".NAN"]) ∨
  (∃ n v, f = .finite n v ∧ FloatText s f)

/-- The values that are no texts, by their texts. Integers of more than 64 bits are refused; those of more than
128 are floats. -/
inductive YamlValueText : Option Yaml → Str → Prop
  | null {s : Str} : s ∈ [c!"", c!"~", c!"null", c!"Null", c!"NULL"] → YamlValueText (some .null) s
  | true {s : Str} : s ∈ [c!"true", c!"True", c!"TRUE"] → YamlValueText (some (.bool true)) s
  | false {s : Str} : s ∈ [c!"false", c!"False", c!"FALSE"] → YamlValueText (some (.bool false)) s
  | unsigned {n : UInt64} {s : Str} : YamlIntText n.toNat s → YamlValueText (some (.num (.posInt n))) s
  | negative {n : Int64} {s : Str} : YamlIntText n.toInt s → n.toInt < 0 → YamlValueText (some (.num (.negInt n))) s
  | wide {n : Int} {s : Str} : YamlIntText n s → (2 ^ 64 ≤ n ∧ n < 2 ^ 128) ∨ (-(2 ^ 127) ≤ n ∧ n < -(2 ^ 63)) → YamlValueText none s
  | float {f : F64} {s : Str} : YamlFloatText f s → ¬ ZerosFirst s → (∀ n, YamlIntText n s → 2 ^ 128 ≤ n ∨ n < -(2 ^ 127)) →
    YamlValueText (some (.num (.float f.show))) s

/-- What a plain scalar is read as; `none` if it is refused. All other plain scalars are texts. -/
def YamlPlainText (v : Option Yaml) (s : Str) : Prop :=
  YamlValueText v s ∨ (v = some (.str s) ∧ ∀ w, ¬ YamlValueText w s)

mutual
/-- A layout chooses between plain and quoted scalars where it may. -/
inductive YamlChosen : YamlNode → YamlNode → Prop
  | plain {s : Str} : YamlChosen (.plain s) (.plain s)
  | free {s : Str} : YamlChosen (.free s) (.plain s)
  | quote {s : Str} : YamlChosen (.free s) (.quoted s)
  | quoted {s : Str} : YamlChosen (.quoted s) (.quoted s)
  | seq {l l' : List YamlNode} : YamlChosenSeq l l' → YamlChosen (.seq l) (.seq l')
  | map {l l' : List (YamlNode × YamlNode)} : YamlChosenMap l l' → YamlChosen (.map l) (.map l')
  | tagged {t : Str} {n n' : YamlNode} : YamlChosen n n' → YamlChosen (.tagged t n) (.tagged t n')
/-- See `YamlChosen`. -/
inductive YamlChosenSeq : List YamlNode → List YamlNode → Prop
  | nil : YamlChosenSeq [] []
  | cons {n n' : YamlNode} {l l' : List YamlNode} : YamlChosen n n' → YamlChosenSeq l l' → YamlChosenSeq (n :: l) (n' :: l')
/-- See `YamlChosen`. -/
inductive YamlChosenMap : List (YamlNode × YamlNode) → List (YamlNode × YamlNode) → Prop
  | nil : YamlChosenMap [] []
  | cons {k k' n n' : YamlNode} {l l' : List (YamlNode × YamlNode)} : YamlChosen k k' → YamlChosen n n' → YamlChosenMap l l' →
    YamlChosenMap ((k, n) :: l) ((k', n') :: l')
end

/-- What is assumed of a layout: trees in `ok` are read from the text that is written for them. -/
structure YamlLayoutLaws (L : YamlLayout) (ok : List (YamlNode × YamlNode) → Prop) : Prop where
  read_write : ∀ l, ok l → ∃ l', L.read (L.write l) = some l' ∧ YamlChosenMap l l'

mutual
/-- The values that there are: numbers are in range, no key is twice in a map. -/
def YamlSound : Yaml → Prop
  | .num (.negInt n) => n.toInt < 0
  | .num (.float f) => ∃ x, InRange x ∧ f = x.show
  | .seq l => YamlSoundSeq l
  | .map m => (yamlTextKeys m).Nodup ∧ YamlSoundMap m
  | .tagged _ v => YamlSound v
  | _ => True
/-- See `YamlSound`. -/
def YamlSoundSeq : List Yaml → Prop
  | [] => True
  | v :: r => YamlSound v ∧ YamlSoundSeq r
/-- See `YamlSound`. -/
def YamlSoundMap : List (Yaml × Yaml) → Prop
  | [] => True
  | (k, v) :: r => YamlSound k ∧ YamlSound v ∧ YamlSoundMap r
end

end Rops.Spec
