import Verif.Model.Keys
import Verif.Model.Base64
import Verif.Model.Timestamp
/-!
# Integrations and integration metadata

Models crates/lib/src/integration/{age.rs,aws_kms/core.rs} and
crates/lib/src/file/metadata/integration/. The `age` crate and the AWS KMS service
are parameters.
-/

namespace Rops

/-- The `age` crate. A recipient is identified with its text. `wrap` is the armored
encryption of a byte string for a recipient (the number selects the randomness),
`unwrap` undoes armor and encryption and gives the plaintext that can be read. -/
structure AgeOps where
  Identity : Type
  parseIdentity : Str → Option Identity
  parseRecipient : Str → Option Str
  toPublic : Identity → Str
  wrap (recipient : Str) (data : Bytes) (i : Nat) : Except IntegrationError Str
  unwrap (id : Identity) (text : Str) : Except IntegrationError Bytes

/-- What an AWS client is made of (aws_kms/core.rs:93-104). -/
structure AwsClient where
  region : Str
  id : Str
  secret : Str
deriving DecidableEq, Repr

/-- What a request to AWS KMS comes to: an error (also of the connection), a successful
answer without content, or content. -/
inductive KmsAnswer where
  | error
  | empty
  | blob (b : Bytes)
deriving DecidableEq, Repr

/-- The AWS KMS service. -/
structure KmsOps where
  encrypt (c : AwsClient) (keyId : Str) (data : Bytes) (i : Nat) : KmsAnswer
  decrypt (c : AwsClient) (keyId : Str) (data : Bytes) : KmsAnswer

/-- `DataKey::byte_size` (crates/lib/src/cryptography/data_key.rs:10,24-26). -/
def dataKeySize : Nat := 32

namespace Age

/-- `AgeIntegration::encrypt_data_key` (crates/lib/src/integration/age.rs:36-55). -/
def encryptDataKey (A : AgeOps) (keyId : Str) (dataKey : Bytes) (i : Nat) : Except IntegrationError Str :=
  A.wrap keyId dataKey i

/-- `AgeIntegration::parse_private_key` (age.rs:29-34). -/
def parsePrivateKey (A : AgeOps) (s : Str) : Except IntegrationError A.Identity :=
  match A.parseIdentity s with
  | some k => .ok k
  | none => .error (.privateKeyParsing none)

/-- `AgeIntegration::decrypt_data_key` (age.rs:57-78). `read_exact` takes the first 32
bytes and fails on fewer. -/
def decryptDataKey (A : AgeOps) (h : Host) (keyId enc : Str) : Except IntegrationError (Option Bytes) :=
  match retrievePrivateKeys (parsePrivateKey A) h c!"age" with
  | .error e => .error e
  | .ok keys => match keys.find? (fun k => A.toPublic k == keyId) with
    | none => .ok none
    | some k => match A.unwrap k enc with
      | .error e => .error e
      | .ok b => if dataKeySize ≤ b.length then .ok (some (b.take dataKeySize)) else .error .io

end Age

namespace Kms

/-- `find_client` (crates/lib/src/integration/aws_kms/core.rs:84-105). -/
def findClient (h : Host) (k : AwsKeyId) : Except IntegrationError (Option AwsClient) :=
  match retrievePrivateKeys AwsPrivateKey.parse h c!"aws_kms" with
  | .error e => .error e
  | .ok keys => match keys.find? (fun p => p.profile == k.profile) with
    | none => .ok none
    | some p => .ok (some { region := k.arn.region, id := p.id, secret := p.secret })

/-- `AwsKmsIntegration::encrypt_data_key` (aws_kms/core.rs:30-47); an answer without content
meets an `expect` (core.rs:43). -/
def encryptDataKey (K : KmsOps) (h : Host) (k : AwsKeyId) (dataKey : Bytes) (i : Nat) :
    Except IntegrationError Str :=
  match findClient h k with
  | .error e => .error e
  | .ok none => .error .encryption
  | .ok (some c) => match K.encrypt c k.arn.keyId dataKey i with
    | .error => .error .encryption
    | .empty => .error .panic
    | .blob b => .ok (Base64.encode b)

/-- `AwsKmsIntegration::decrypt_data_key` (aws_kms/core.rs:49-73); `DataKey::try_from`
(data_key.rs:45-53) requires 32 bytes; an answer without content meets an `expect`
(core.rs:67). -/
def decryptDataKey (K : KmsOps) (h : Host) (k : AwsKeyId) (enc : Str) :
    Except IntegrationError (Option Bytes) :=
  match Base64.decode enc with
  | none => .error .decryption
  | some blob => match findClient h k with
    | .error e => .error e
    | .ok none => .ok none
    | .ok (some c) => match K.decrypt c k.arn.keyId blob with
      | .error => .error .encryption
      | .empty => .error .panic
      | .blob b => if b.length = dataKeySize then .ok (some b) else .error .decryption

end Kms

/-- The integrations; the implementors of `Integration`
(crates/lib/src/integration/core.rs:7-70). -/
inductive Kind where
  | age | kms
deriving DecidableEq, Repr

/-- `Integration::KeyId`: a recipient (age.rs:19) or an `AwsKeyId` (aws_kms/core.rs:13). -/
abbrev Kind.Id : Kind → Type
  | .age => Str
  | .kms => AwsKeyId

instance : (k : Kind) → DecidableEq k.Id
  | .age => inferInstanceAs (DecidableEq Str)
  | .kms => inferInstanceAs (DecidableEq AwsKeyId)

/-- The outside world of the integrations: the two libraries, the process environment,
the random data keys and the clock (each read at the current position of the tape). -/
structure KeyEnv where
  A : AgeOps
  K : KmsOps
  host : Host
  /-- `DataKey::new` at a position of the tape -/
  newKey : Nat → Bytes
  /-- `Utc::now` at a position of the tape -/
  clock : Nat → Timestamp

/-- `Integration::encrypt_data_key` (core.rs:65). -/
def KeyEnv.encryptDataKey (env : KeyEnv) : (k : Kind) → k.Id → Bytes → Nat → Except IntegrationError Str
  | .age, id, d, i => Age.encryptDataKey env.A id d i
  | .kms, id, d, i => Kms.encryptDataKey env.K env.host id d i

/-- `Integration::decrypt_data_key` (core.rs:67). -/
def KeyEnv.decryptDataKey (env : KeyEnv) : (k : Kind) → k.Id → Str → Except IntegrationError (Option Bytes)
  | .age, id, e => Age.decryptDataKey env.A env.host id e
  | .kms, id, e => Kms.decryptDataKey env.K env.host id e

/-- `INCLUDE_DATA_KEY_CREATED_AT` (aws_kms/config.rs:12, age.rs config). -/
def Kind.includeCreatedAt : Kind → Bool
  | .age => false
  | .kms => true

/-- `IntegrationMetadataUnit` (crates/lib/src/file/metadata/integration/unit.rs:7-14);
the config holds only the key id (age.rs and aws_kms/config.rs:6-9). -/
structure IUnit (k : Kind) where
  keyId : k.Id
  createdAt : Option Timestamp
  enc : Str

/-- `IntegrationMetadataUnits` (integration/units.rs:9): an index map from key id to
unit. The key of an entry always is the key id of its unit (units.rs:17-22), so the
map is modelled by the list of its units. -/
abbrev Units (k : Kind) := List (IUnit k)

/-- `IntegrationMetadataUnits::insert` (units.rs:17-22): replaces in place or appends. -/
def Units.insert {k : Kind} : Units k → IUnit k → Units k
  | [], u => [u]
  | x :: r, u => if x.keyId = u.keyId then u :: r else x :: Units.insert r u

/-- `IndexMap::shift_remove` (metadata/core.rs:114). -/
def Units.remove {k : Kind} : Units k → k.Id → Option (IUnit k × Units k)
  | [], _ => none
  | x :: r, id => if x.keyId = id then some (x, r) else
    match Units.remove r id with
    | none => none
    | some (u, r') => some (u, x :: r')

/-- `IntegrationMetadata` (integration/core.rs:6-15). -/
structure IntegrationMetadata where
  kms : Units .kms
  age : Units .age

/-- `IntegrationMetadata::default`. -/
def IntegrationMetadata.empty : IntegrationMetadata := { kms := [], age := [] }

/-- `Integration::select_metadata_units` (age.rs:80-82, aws_kms/core.rs:75-77), reading. -/
def IntegrationMetadata.units (m : IntegrationMetadata) : (k : Kind) → Units k
  | .age => m.age
  | .kms => m.kms

/-- `Integration::select_metadata_units`, writing. -/
def IntegrationMetadata.setUnits (m : IntegrationMetadata) : (k : Kind) → Units k → IntegrationMetadata
  | .age, u => { m with age := u }
  | .kms, u => { m with kms := u }

/-- `IntegrationMetadataUnit::new` (unit.rs:17-23); `IntegrationCreatedAt::now`
(integration/created_at.rs:10-12) takes whole seconds. -/
def KeyEnv.newUnit (env : KeyEnv) (k : Kind) (id : k.Id) (dataKey : Bytes) (i : Nat) :
    Except IntegrationError (IUnit k) :=
  match env.encryptDataKey k id dataKey i with
  | .error e => .error e
  | .ok enc =>
    .ok { keyId := id, createdAt := if k.includeCreatedAt then some (env.clock i).truncate else none, enc }

/-- `IntegrationMetadata::add_keys` (integration/core.rs:18-30). The first error ends it,
the units inserted before stay. Returns the result, the metadata and the next position of
the tape. -/
def KeyEnv.addKeys (env : KeyEnv) (k : Kind) (dataKey : Bytes) :
    List k.Id → IntegrationMetadata → Nat → Except IntegrationError Unit × IntegrationMetadata × Nat
  | [], m, i => (.ok (), m, i)
  | id :: ids, m, i => match env.newUnit k id dataKey i with
    | .error e => (.error e, m, i + 1)
    | .ok u => env.addKeys k dataKey ids (m.setUnits k ((m.units k).insert u)) (i + 1)

/-- `find_map(|unit| decrypt_data_key(..).transpose())` (integration/core.rs:37-39,44-46):
the first unit that is not `Ok(None)`. -/
def KeyEnv.findDataKey (env : KeyEnv) (k : Kind) : Units k → Option (Except IntegrationError Bytes)
  | [] => none
  | u :: r => match env.decryptDataKey k u.keyId u.enc with
    | .ok none => env.findDataKey k r
    | .ok (some d) => some (.ok d)
    | .error e => some (.error e)

/-- `IntegrationMetadata::decrypt_data_key` (integration/core.rs:32-51). -/
def KeyEnv.decryptAny (env : KeyEnv) (m : IntegrationMetadata) : Except IntegrationError (Option Bytes) :=
  match env.findDataKey .age m.age with
  | some (.ok d) => .ok (some d)
  | some (.error e) => .error e
  | none => match env.findDataKey .kms m.kms with
    | some (.ok d) => .ok (some d)
    | some (.error e) => .error e
    | none => .ok none

/-- `update_data_key` (metadata/core.rs:128-136): wraps the new key for each unit in
order; an error ends it and leaves the earlier units updated. -/
def KeyEnv.updateUnits (env : KeyEnv) (k : Kind) (dataKey : Bytes) :
    Units k → Nat → Except IntegrationError Unit × Units k × Nat
  | [], i => (.ok (), [], i)
  | u :: r, i => match env.encryptDataKey k u.keyId dataKey i with
    | .error e => (.error e, u :: r, i + 1)
    | .ok enc => match env.updateUnits k dataKey r (i + 1) with
      | (res, r', j) => (res, { u with enc } :: r', j)

/-- `RopsFileMetadata::remove_integration_key` (metadata/core.rs:108-137), which only
touches the integration metadata. -/
def KeyEnv.removeKey (env : KeyEnv) (k : Kind) (id : k.Id) (m : IntegrationMetadata) (i : Nat) :
    Except IntegrationError (Option (IUnit k)) × IntegrationMetadata × Nat :=
  match (m.units k).remove id with
  | none => (.ok none, m, i)
  | some (removed, rest) =>
    let m := m.setUnits k rest
    let newKey := env.newKey i
    match env.updateUnits .age newKey m.age (i + 1) with
    | (.error e, age, i) => (.error e, { m with age }, i)
    | (.ok (), age, i) =>
      let m := { m with age }
      match env.updateUnits .kms newKey m.kms i with
      | (.error e, kms, i) => (.error e, { m with kms }, i)
      | (.ok (), kms, i) => (.ok (some removed), { m with kms }, i)

end Rops
