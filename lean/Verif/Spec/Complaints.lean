import Verif.Spec.Syntax
import Verif.Spec.ReadErrors
import Verif.Spec.CliHistory
import Verif.Model.Messages
/-!
# What is wrong with an encrypted value

Vocabulary for C70.
-/

namespace Rops.Spec

/-- The text consists of these fields, separated by commas. -/
inductive Fields : Str → List Str → Prop
  | last {w : Str} : ',' ∉ w → Fields w [w]
  | more {w s : Str} {fs : List Str} : ',' ∉ w → Fields s fs → Fields (w ++ ',' :: s) (w :: fs)

/-- The fields of an encrypted value after the name of the cipher. -/
inductive Field where
  | data | iv | tag | type
deriving DecidableEq, Repr

/-- How a field begins. -/
def Field.label : Field → Str
  | .data => c!"data:"
  | .iv => c!"iv:"
  | .tag => c!"tag:"
  | .type => c!"type:"

/-- How a field is called in messages. -/
def Field.title : Field → Str
  | .data => c!"'data'"
  | .iv => c!"'iv' (initialization vector)"
  | .tag => c!"'tag' (authorization tag)"
  | .type => c!"'type' (value type)"

/-- All fields before the given one are right; the others remain. -/
inductive Upto (C : Cipher) (fs : List Str) : Field → List Str → Prop
  | data {r} : fs = C.name :: r → Upto C fs .data r
  | iv {t b r} : Upto C fs .data ((c!"data:" ++ t) :: r) → Denotes t b → Upto C fs .iv r
  | tag {t b r} : Upto C fs .iv ((c!"iv:" ++ t) :: r) → Denotes t b → b.length ≤ C.nonceSize → Upto C fs .tag r
  | type {t b r} : Upto C fs .tag ((c!"tag:" ++ t) :: r) → Denotes t b → b.length ≤ C.tagSize → Upto C fs .type r

/-- What is said about the first field that is wrong. `why` is the reason that the library gives
for a text which is not base64. -/
inductive WrongField (C : Cipher) (why : Str → Str) (fs : List Str) : Str → Prop
  /-- Another cipher. -/
  | cipher {n r} : fs = n :: r → n ≠ C.name → WrongField C why fs (c!"invalid cipher: " ++ n ++ c!", expected: " ++ C.name)
  /-- A field that is not there. -/
  | missing {x r} : Upto C fs x r → (∀ t r', r ≠ (x.label ++ t) :: r') →
      WrongField C why fs (c!"missing " ++ x.title ++ c!" key-value pair")
  /-- A field with bytes that cannot be read. -/
  | base64 {x t r} : x ≠ .type → Upto C fs x ((x.label ++ t) :: r) → (∀ b, ¬ Denotes t b) →
      WrongField C why fs (c!"unable to base64 decode " ++ t ++ c!", reason: " ++ why t)
  /-- An unknown type. -/
  | type {t r} : Upto C fs .type ((c!"type:" ++ t) :: r) → (∀ v, t ≠ typeName v) →
      WrongField C why fs (c!"unable to parse value type: " ++ t)

/-- What is said about a text that should be one of an encrypted value. -/
inductive Complaint (C : Cipher) (why : Str → Str) (s : Str) : Str → Prop
  | start : (∀ r, s ≠ c!"ENC" ++ r) → Complaint C why s c!"missing ENC prefix"
  | opening {r} : s = c!"ENC" ++ r → (∀ r', s ≠ c!"ENC[" ++ r') → Complaint C why s c!"missing opening ('[') bracket"
  | closing {r} : s = c!"ENC[" ++ r → (∀ r', s ≠ c!"ENC[" ++ r' ++ c!"]") →
      Complaint C why s c!"missing closing (']') bracket"
  | field {r fs c} : s = c!"ENC[" ++ r ++ c!"]" → Fields r fs → WrongField C why fs c → Complaint C why s c

mutual
/-- What is found one after the other in a YAML value: the scalars with their paths, and keys that
are no strings. Null is not listed. -/
def yamlItems (p : List Str) : Yaml → List (List Str × Option Scalar)
  | .seq l => yamlItemsSeq p l
  | .map m => yamlItemsMap p m
  | .null => []
  | .bool b => [(p, some (.bool b))]
  | .num n => [(p, some (numberScalar n))]
  | .str s => [(p, some (.str s))]
  | .tagged _ v => yamlItems p v
/-- See `yamlItems`. -/
def yamlItemsSeq (p : List Str) : List Yaml → List (List Str × Option Scalar)
  | [] => []
  | t :: r => yamlItems p t ++ yamlItemsSeq p r
/-- See `yamlItems`. -/
def yamlItemsMap (p : List Str) : List (Yaml × Yaml) → List (List Str × Option Scalar)
  | [] => []
  | (.str k, t) :: r => yamlItems (p ++ [k]) t ++ yamlItemsMap p r
  | _ :: r => (p, none) :: yamlItemsMap p r
end

/-- What is found one after the other in a document: scalars with their paths and, in YAML, keys
that are no strings. -/
def docItems : (x : Fmt) → x.doc.F.Map → List (List Str × Option Scalar)
  | .yaml, m => yamlItemsMap [] m
  | .json, m => (leaves (jsonMap m)).map fun (p, s) => (p, some s)
  | .toml, m => (leaves (tomlMap m)).map fun (p, s) => (p, some s)

/-- The first item that is not as it should be, by `good`, is as `bad` says. -/
def FirstBad (l : List (List Str × Option Scalar)) (good bad : List Str → Option Scalar → Prop) : Prop :=
  ∃ A p i B, l = A ++ (p, i) :: B ∧ (∀ a ∈ A, good a.1 a.2) ∧ bad p i

/-- The item of a plain document can be read. -/
def GoodItem (_ : List Str) : Option Scalar → Prop
  | none => False
  | some s => ∃ v, Reads s v

/-- What is said about an item of a plain document. -/
inductive SaysPlain (W : Wording) (p : List Str) : Option Scalar → Str → Prop
  | key : SaysPlain W p none (c!"only string keys are supported, found: " ++ W.yamlKey)
  | range (n : Nat) : 2 ^ 63 ≤ n → SaysPlain W p (some (.int n))
      (c!"integer out of range, allowed values must fit inside an i64, found: " ++ Nat.toDigits 10 n)

/-- The item can stand at the path of an encrypted document. -/
def GoodEncItem (C : Cipher) (rx : RegexMatch) (cfg : Option PartialEncryption) (p : List Str) : Option Scalar → Prop
  | none => False
  | some s => EncScalar C rx cfg p s

/-- What is said about an item at a path of an encrypted document: the text of the error and those
of its sources. -/
inductive SaysEnc (C : Cipher) (W : Wording) (rx : RegexMatch) (cfg : Option PartialEncryption) (p : List Str) :
    Option Scalar → List Str → Prop
  | key : SaysEnc C W rx cfg p none [c!"only string keys are supported, found: " ++ W.yamlKey]
  | range (n : Nat) : Plain rx cfg p → 2 ^ 63 ≤ n → SaysEnc C W rx cfg p (some (.int n))
      [c!"integer out of range, allowed values must fit inside an i64, found: " ++ Nat.toDigits 10 n]
  | text {t c : Str} : ¬ Plain rx cfg p → Complaint C W.base64 t c → SaysEnc C W rx cfg p (some (.str t))
      [c!"unable to parse encrypted value components: " ++ c, c]
  | plaintext {s : Scalar} : ¬ Plain rx cfg p → (∀ t, s ≠ .str t) → SaysEnc C W rx cfg p (some s)
      [c!"encountered plaintext value when it should have been encrypted"]

end Rops.Spec
