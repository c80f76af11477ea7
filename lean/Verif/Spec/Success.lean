import Verif.Spec.Cli
import Verif.Spec.File
/-!
# What a process can do with the keys of a file

Vocabulary for C67.
-/

namespace Rops.Spec

/-- The process can encrypt a data key for the key id, at any time: any age recipient for which
age encrypts; a KMS key if there is a private key for its profile and KMS accepts the requests
that the first one signs. -/
def CanWrap (env : KeyEnv) : (k : Kind) → k.Id → Prop
  | .age, r => ∀ d i, ∃ t, env.A.wrap r d i = .ok t
  | .kms, id => ∃ ps p, retrievePrivateKeys AwsPrivateKey.parse env.host c!"aws_kms" = .ok ps ∧ FirstOf id.profile ps p ∧
      ∀ d i, ∃ b, env.K.encrypt (clientFor id p) id.arn.keyId d i = .blob b

/-- The process can at no time encrypt a data key for the key id. -/
def NeverWraps (env : KeyEnv) : (k : Kind) → k.Id → Prop
  | .age, r => ∀ d i t, env.A.wrap r d i ≠ .ok t
  | .kms, id => ∀ ps p, retrievePrivateKeys AwsPrivateKey.parse env.host c!"aws_kms" = .ok ps → FirstOf id.profile ps p →
      ∀ d i b, env.K.encrypt (clientFor id p) id.arn.keyId d i ≠ .blob b

/-- Whether the process can encrypt for the key id does not change. -/
def Steady (env : KeyEnv) (k : Kind) (id : k.Id) : Prop := CanWrap env k id ∨ NeverWraps env k id

/-- The process has a private key for the key id. -/
def Owns (env : KeyEnv) : (k : Kind) → k.Id → Prop
  | .age, r => ∃ ks, retrievePrivateKeys (Age.parsePrivateKey env.A) env.host c!"age" = .ok ks ∧ ∃ s ∈ ks, env.A.toPublic s = r
  | .kms, id => ∃ ps, retrievePrivateKeys AwsPrivateKey.parse env.host c!"aws_kms" = .ok ps ∧ ∃ p ∈ ps, p.profile = id.profile

/-- KMS does not refuse to decrypt what was encrypted with the key for the private key that the
process has for its profile. -/
def KmsOpens (env : KeyEnv) (id : Kind.Id .kms) : Prop :=
  ∀ ps p, retrievePrivateKeys AwsPrivateKey.parse env.host c!"aws_kms" = .ok ps → FirstOf id.profile ps p →
    ∀ c d i b, env.K.encrypt c id.arn.keyId d i = .blob b → ∃ d', env.K.decrypt (clientFor id p) id.arn.keyId b = .blob d'

/-- The given keys of a kind. -/
def IntegrationKeys.of (keys : IntegrationKeys) : (k : Kind) → List k.Id
  | .age => keys.age
  | .kms => keys.kms

/-- The first of the given ids that is among the present ones. -/
def FirstIn {α : Type} (present given : List α) (x : α) : Prop :=
  x ∈ present ∧ ∃ before after, given = before ++ x :: after ∧ ∀ y ∈ before, y ∉ present

/-- The first of the given keys that the file has, age keys before KMS keys. -/
def FirstPresent (im : IntegrationMetadata) (keys : IntegrationKeys) : (k : Kind) → k.Id → Prop
  | .age, id => FirstIn (keyIds im .age) keys.age id
  | .kms, id => (∀ y ∈ keys.age, y ∉ keyIds im .age) ∧ FirstIn (keyIds im .kms) keys.kms id

/-- The output of a command can be written to the file or printed. -/
def Deliverable (P : Proc) (inPlace : Bool) (file : Option Str) : Prop :=
  if inPlace then ∀ p, file = some p → ∀ b, P.saves p b = .done else P.stdout = none

/-- The keys that `rops encrypt` encrypts for: those of the arguments and of the rule. -/
def encryptKeys (rx : RegexMatch) (config : Config) (l : EncryptLine) (k : Kind) : List k.Id :=
  IntegrationKeys.of l.keys k ++ IntegrationKeys.of (ruleKeys (ruleFor rx config l.input.file)) k

end Rops.Spec
