import Verif.Spec.Records
import Verif.Lemmas.CrashRuns
/-!
# Where reading panics

Entries are read in the order of the document. Reading goes on past entries that are fine or have
other names, and ends at the first one that is not fine.
-/

namespace Rops.Spec

/-- Each of the entries with these names is given at most once and is fine. -/
def Clean (d : RMap JsonScalar) (fine : List (Str × (Json → Prop))) : Prop :=
  ∀ n P, (n, P) ∈ fine → Absent d n ∨ ∃ v, Entry d n v ∧ P v

/-- A text that is read. -/
def TextOf {α : Type} (parse : Str → Option α) (v : Json) : Prop := ∃ s, v = isText s ∧ (parse s).isSome

/-- A list of units of one kind. -/
def UnitList (O : DocOps) (k : Kind) (v : Json) : Prop :=
  ∃ l, v = .seq l ∧ ∀ w ∈ l, ∃ d u, w = .map d ∧ DescribesUnit O k d u

/-- A unit of AWS KMS whose reading panics: it has a good date, if any, and an encrypted data key,
wherever they stand, and before the bad ARN there is neither a second profile nor one that is no
text. -/
def UnitPanics (O : DocOps) (u : RMap JsonScalar) : Prop :=
  Clean u [(c!"created_at", fun v => v = .null ∨ TextOf O.parseDate v)] ∧ (∃ s, Entry u c!"enc" (isText s)) ∧
  ∃ a t b, u = a ++ (c!"arn", isText t) :: b ∧ Absent a c!"arn" ∧ Clean a [(c!"aws_profile", fun v => ∃ s, v = isText s)] ∧
    BadArn O.arn t

/-- Metadata whose reading panics: because of an overlong MAC, if what comes before it is fine, or,
if the date, the MAC and the flag are fine wherever they stand, because of a bad ARN, if the units
before are fine. -/
def MetadataPanics (O : DocOps) (C : Cipher) (d : RMap JsonScalar) : Prop :=
  (∃ a t b, d = a ++ (c!"mac", isText t) :: b ∧ Absent a c!"mac" ∧
    Clean a [(c!"lastmodified", TextOf O.parseDate), (c!"mac_only_encrypted", fun v => v = .null ∨ ∃ x, v = .leaf (.bool x))] ∧
    Overlong C t) ∨
  ((∃ v, Entry d c!"lastmodified" v ∧ TextOf O.parseDate v) ∧
   (∃ v, Entry d c!"mac" v ∧ TextOf (fun s => (EncValue.parse C s).toOption) v) ∧
   Clean d [(c!"mac_only_encrypted", fun v => v = .null ∨ ∃ x, v = .leaf (.bool x))] ∧
   ∃ a l u l' b, d = a ++ (c!"kms", .seq (l ++ .map u :: l')) :: b ∧ Absent a c!"kms" ∧ Clean a [(c!"age", UnitList O .age)] ∧
    UnitList O .kms (.seq l) ∧ UnitPanics O u)

/-- A list of age keys. -/
def AgeKeyList (O : DocOps) (v : Json) : Prop := ∃ l, v = .seq l ∧ ∀ w ∈ l, TextOf O.A.parseRecipient w

/-- A list of keys of AWS KMS whose reading panics: the keys before the one with the bad ARN are
fine. -/
def KmsListPanics (O : DocOps) (v : Json) : Prop :=
  ∃ l profile arn l', v = .seq (l ++ isText (profile ++ '.' :: arn) :: l') ∧
    (∀ w ∈ l, TextOf (fun s => (AwsKeyId.parse O.arn s).toOption) w) ∧ '.' ∉ profile ∧ BadArn O.arn arn

/-- Keys of a rule whose reading panics: a table or an array in which the age keys are fine if they
stand before. -/
def KeysPanic (O : DocOps) (v : Json) : Prop :=
  (∃ a w b, v = .map (a ++ (c!"aws_kms", w) :: b) ∧ Absent a c!"aws_kms" ∧ Clean a [(c!"age", AgeKeyList O)] ∧ KmsListPanics O w) ∨
  ∃ a w b, v = .seq (a :: w :: b) ∧ AgeKeyList O a ∧ KmsListPanics O w

/-- A rule whose reading panics. -/
def RulePanics (O : DocOps) (v : Json) : Prop :=
  (∃ a k b, v = .map (a ++ (c!"integration_keys", k) :: b) ∧ Absent a c!"integration_keys" ∧
    Clean a [(c!"path_regex", fun v => ∃ s, v = isText s ∧ O.regexOk s = true),
      (c!"mac_only_encrypted", fun v => ∃ x, v = .leaf (.bool x)),
      (c!"partial_encryption", fun v => ∃ n x p, v = .map [(n, x)] ∧ DescribesSetting O n x p)] ∧ KeysPanic O k) ∨
  ∃ s x n t p k rest, v = .seq (isText s :: .leaf (.bool x) :: .map [(n, t)] :: k :: rest) ∧ O.regexOk s = true ∧
    DescribesSetting O n t p ∧ KeysPanic O k

/-- A configuration whose reading panics. -/
def ConfigPanics (O : DocOps) (d : RMap JsonScalar) : Prop :=
  ∃ a l r l' b, d = a ++ (c!"creation_rules", .seq (l ++ r :: l')) :: b ∧ Absent a c!"creation_rules" ∧
    (∀ w ∈ l, ∃ c, DescribesRule O w c) ∧ RulePanics O r

end Rops.Spec
