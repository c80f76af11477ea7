import Verif.Model.Integration
/-!
# Specification vocabulary for keys
-/

namespace Rops.Spec

/-- What is assumed of the `age` crate: an identity decrypts what was encrypted for its own
recipient. -/
structure AgeLaws (A : AgeOps) : Prop where
  unwrap_wrap : ∀ {id r d i t}, A.toPublic id = r → A.wrap r d i = .ok t → A.unwrap id t = .ok d

/-- What is assumed of AWS KMS: a decryption of an encryption result that is not refused
gives the encrypted data. -/
structure KmsLaws (K : KmsOps) : Prop where
  decrypt_encrypt : ∀ {c c' k d i b d'}, K.encrypt c k d i = .blob b → K.decrypt c' k b = .blob d' → d' = d

/-- The unit holds an encryption of the data key for its key id. -/
def Wraps (A : AgeOps) (K : KmsOps) : (k : Kind) → IUnit k → Bytes → Prop
  | .age, u, d => ∃ i, A.wrap u.keyId d i = .ok u.enc
  | .kms, u, d => ∃ c i b, K.encrypt c u.keyId.arn.keyId d i = .blob b ∧ u.enc = Base64.encode b

/-- Every unit holds an encryption of the data key. -/
def AllWrap (A : AgeOps) (K : KmsOps) (im : IntegrationMetadata) (d : Bytes) : Prop :=
  ∀ (k : Kind), ∀ u ∈ im.units k, Wraps A K k u d

/-- The key ids of the stored units, in order. -/
def keyIds (im : IntegrationMetadata) (k : Kind) : List k.Id := (im.units k).map IUnit.keyId

/-- The key ids after adding some: each new one is appended once, in order. -/
def addIds {α : Type} [DecidableEq α] (old new : List α) : List α :=
  new.foldl (fun acc id => if id ∈ acc then acc else acc ++ [id]) old

/-- The results of trying the stored units one by one, age units first. -/
def tries (env : KeyEnv) (im : IntegrationMetadata) : List (Except IntegrationError (Option Bytes)) :=
  im.age.map (fun u => env.decryptDataKey .age u.keyId u.enc) ++
  im.kms.map (fun u => env.decryptDataKey .kms u.keyId u.enc)

/-- The variable with private keys: `ROPS_AGE`, `ROPS_AWS_KMS`. -/
def keyVariable (name : Str) : Str := c!"ROPS_" ++ name.map Char.toUpper

/-- The variable with the path of the key file: `ROPS_AGE_KEY_FILE`, `ROPS_AWS_KMS_KEY_FILE`. -/
def keyFileVariable (name : Str) : Str := keyVariable name ++ c!"_KEY_FILE"

/-- The key texts of an environment variable: separated by commas. -/
def varTexts (h : Host) (name : Str) : Option (List Str) :=
  match h.var (keyVariable name) with
  | .value s => some (splitOn ',' s)
  | .notPresent => some []
  | .notUnicode _ => none

/-- The path of the key file. -/
def keyFilePath (h : Host) (name : Str) : Option Str :=
  match h.varPath (keyFileVariable name), h.configDir with
  | some p, _ => some p
  | none, some d => some (d ++ c!"/rops/" ++ name ++ c!"_keys")
  | none, none => none

/-- The key texts of the key file: the trimmed lines that are not blank; none if the file
does not exist. -/
def fileTexts (h : Host) (name : Str) : Option (List Str) :=
  match keyFilePath h name with
  | none => none
  | some path => match h.file path with
    | .missing => some []
    | .unreadable => none
    | .text s => some (((splitOn '\n' s).map trim).filter (· ≠ []))

/-- A text is a resource name of AWS with these parts, of which partition, region and
account may be empty; only the resource may contain ':'. -/
structure ArnParts (A : ArnChecks) (s p sv rg ac res : Str) : Prop where
  text : s = c!"arn:" ++ p ++ c!":" ++ sv ++ c!":" ++ rg ++ c!":" ++ ac ++ c!":" ++ res
  partition : p = [] ∨ A.ident p = true
  service : A.ident sv = true
  region : rg = [] ∨ A.ident rg = true
  account : ac = [] ∨ A.account ac = true
  resource : A.resource res = true

/-- The absent value for the empty text. -/
def nonEmpty (s : Str) : Option Str := if s = [] then none else some s

/-- The parts of a resource: what precedes the last '/', if there is one, and what follows. -/
def ResourceParts (res : Str) (parent : Option Str) (id : Str) : Prop :=
  '/' ∉ id ∧ match parent with
    | some p => res = p ++ '/' :: id
    | none => res = id

/-- The first private key of a profile. -/
def FirstOf (profile : Str) (ps : List AwsPrivateKey) (p : AwsPrivateKey) : Prop :=
  p.profile = profile ∧ ∃ before after, ps = before ++ p :: after ∧ ∀ q ∈ before, q.profile ≠ profile

/-- The client that acts for the owner of a private key in the region of a key. -/
def clientFor (k : AwsKeyId) (p : AwsPrivateKey) : AwsClient := ⟨k.arn.region, p.id, p.secret⟩

/-- The creation date of a unit made between two positions of the tape: none for age, a
time between the positions in whole seconds for KMS. -/
def Dated (env : KeyEnv) (lo hi : Nat) : (k : Kind) → IUnit k → Prop
  | .age, u => u.createdAt = none
  | .kms, u => ∃ n, lo ≤ n ∧ n < hi ∧ u.createdAt = some { env.clock n with nano := 0 }

/-- The unit holds an encryption of the data key for its key id that was made between two positions
of the tape. -/
def WrapsIn (env : KeyEnv) (lo hi : Nat) : (k : Kind) → IUnit k → Bytes → Prop
  | .age, u, d => ∃ n, lo ≤ n ∧ n < hi ∧ env.A.wrap u.keyId d n = .ok u.enc
  | .kms, u, d => ∃ n c b, lo ≤ n ∧ n < hi ∧ env.K.encrypt c u.keyId.arn.keyId d n = .blob b ∧ u.enc = Base64.encode b

end Rops.Spec
