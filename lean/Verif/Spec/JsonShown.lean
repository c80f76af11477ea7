import Verif.Spec.YamlShown
import Verif.Spec.JsonText
/-!
# Specification: how JSON documents are written

Which of the texts of a document (`Spec.JsonText`) is the one that is written. Only for floats there is a choice: whether the decimal has a point or
an exponent.
-/

namespace Rops.Spec

/-- The letters that are used for characters: those of JSON but for the slash, which stands for itself. -/
def shownLetters : List (Char × Nat) := [('"', 34), ('\\', 92), ('b', 8), ('t', 9), ('n', 10), ('f', 12), ('r', 13)]

/-- A character of a string: as it is unless it must be escaped, and then by its letter, or by its number if it has no letter. -/
inductive JsonCharShown : Char → Str → Prop
  | self {c : Char} : 32 ≤ c.toNat → c ≠ '"' → c ≠ '\\' → JsonCharShown c [c]
  | letter {c e : Char} : (e, c.toNat) ∈ shownLetters → JsonCharShown c ['\\', e]
  | number {c : Char} {h : Str} : c.toNat < 32 → (∀ e, (e, c.toNat) ∉ shownLetters) → Hex4 h c.toNat → (∀ d ∈ h, ¬ ('A' ≤ d ∧ d ≤ 'F')) →
    JsonCharShown c ('\\' :: 'u' :: h)

/-- The characters of a string. -/
inductive JsonCharsShown : Str → Str → Prop
  | nil : JsonCharsShown [] []
  | cons {c : Char} {s x y : Str} : JsonCharShown c x → JsonCharsShown s y → JsonCharsShown (c :: s) (x ++ y)

/-- A string. -/
def JsonStringShown (s x : Str) : Prop := ∃ y, JsonCharsShown s y ∧ x = '"' :: (y ++ ['"'])

/-- A scalar. Floats that are no numbers are null. -/
inductive JsonScalarShown : JsonScalar → Str → Prop
  | true : JsonScalarShown (.bool true) c!"true"
  | false : JsonScalarShown (.bool false) c!"false"
  | natural {ds : Str} {n : UInt64} : JsonInt ds n.toNat → JsonScalarShown (.num (.posInt n)) ds
  | negative {ds : Str} {k : Nat} {n : Int64} : JsonInt ds k → n.toInt = -(k : Int) → JsonScalarShown (.num (.negInt n)) ('-' :: ds)
  | float {neg : Bool} {v : Nat} {t : Str} : InRange (.finite neg v) → FloatShown (.finite neg v) t →
    JsonScalarShown (.num (.float (F64.finite neg v).show)) t
  | none {f : F64} : InRange f → (∀ neg v, f ≠ .finite neg v) → JsonScalarShown (.num (.float f.show)) c!"null"
  | text {s x : Str} : JsonStringShown s x → JsonScalarShown (.str s) x

/-- Texts with commas between them. -/
def commas : List Str → Str
  | [] => []
  | [x] => x
  | x :: y :: r => x ++ ',' :: commas (y :: r)

/-- A text on a line of its own, two spaces further right for each level. -/
def onLine (n : Nat) (x : Str) : Str := '\n' :: (List.replicate (2 * n) ' ' ++ x)

mutual
/-- A value at a level. What is in it has lines of its own, one level further right. -/
def JsonShown (n : Nat) : Json → Str → Prop
  | .null, s => s = c!"null"
  | .leaf a, s => JsonScalarShown a s
  | .seq l, s => (l = [] ∧ s = c!"[]") ∨ (l ≠ [] ∧ ∃ xs, JsonItemsShown (n + 1) l xs ∧ s = c!"[" ++ (commas xs ++ onLine n c!"]"))
  | .map m, s => (m = [] ∧ s = c!"{}") ∨ (m ≠ [] ∧ ∃ xs, JsonFieldsShown (n + 1) m xs ∧ s = c!"{" ++ (commas xs ++ onLine n c!"}"))
/-- The elements of an array. -/
def JsonItemsShown (n : Nat) : List Json → List Str → Prop
  | [], xs => xs = []
  | t :: r, xs => ∃ x ys, JsonShown n t x ∧ JsonItemsShown n r ys ∧ xs = onLine n x :: ys
/-- The members of an object. -/
def JsonFieldsShown (n : Nat) : List (Str × Json) → List Str → Prop
  | [], xs => xs = []
  | (k, t) :: r, xs => ∃ y x ys, JsonStringShown k y ∧ JsonShown n t x ∧ JsonFieldsShown n r ys ∧ xs = onLine n (y ++ (c!": " ++ x)) :: ys
end

/-- Numbers as readers make them: negative ones are negative, floats are floats. -/
def JsonNumbers (m : RMap JsonScalar) : Prop :=
  ∀ e ∈ leaves m, (∀ n, e.2 = .num (.negInt n) → n.toInt < 0) ∧ ∀ f, e.2 = .num (.float f) → ∃ x, InRange x ∧ f = x.show

/-- No floats. -/
def JsonFloatless (m : RMap JsonScalar) : Prop := ∀ e ∈ leaves m, ∀ f, e.2 ≠ .num (.float f)

end Rops.Spec
