import Verif.Model.Mac
import Verif.Model.Integration
/-!
# File metadata

Models crates/lib/src/file/metadata/core.rs and crates/lib/src/file/saved_parameters.rs.
-/

namespace Rops

/-- `RopsFileMetadata` (crates/lib/src/file/metadata/core.rs:12-25). `M` is the type of the
MAC: `Mac` when decrypted, `EncValue` when encrypted. -/
structure Metadata (M : Type) where
  integration : IntegrationMetadata
  lastModified : Timestamp
  mac : M
  partialEncryption : Option PartialEncryption
  macOnlyEncrypted : Option Bool

/-- `RopsFileMetadataDataKeyRetrievalError` (core.rs:36-41). -/
inductive RetrievalError where
  | integration (e : IntegrationError)
  | missingDataKey
deriving DecidableEq, Repr

/-- `RopsFileMetadataDecryptError` (core.rs:28-33). -/
inductive MetadataDecryptError where
  | mac
  | retrieval (e : RetrievalError)
deriving DecidableEq, Repr

/-- Everything outside of rops that files depend on. -/
structure Env extends KeyEnv where
  C : Cipher
  H : Hasher
  fl : FloatOps
  rx : RegexMatch
  /-- `Nonce::new` at a position of the tape -/
  nonce : Nat → Bytes

/-- `retrieve_data_key` (core.rs:47-52). -/
def Env.retrieveDataKey {M : Type} (env : Env) (md : Metadata M) : Except RetrievalError Bytes :=
  match env.decryptAny md.integration with
  | .error e => .error (.integration e)
  | .ok none => .error .missingDataKey
  | .ok (some d) => .ok d

/-- `RopsFileMetadata::decrypt` and `decrypt_and_save_mac_nonce` (core.rs:56-99): they differ
only in whether the saved nonce is returned. -/
def Env.decryptMetadata (env : Env) (md : Metadata EncValue) :
    Except MetadataDecryptError (Metadata Mac × Bytes × SavedMacNonce) :=
  match env.retrieveDataKey md with
  | .error e => .error (.retrieval e)
  | .ok key => match EncMac.decrypt env.C key md.lastModified md.mac with
    | none => .error .mac
    | some (mac, saved) =>
      .ok ({ integration := md.integration, lastModified := md.lastModified, mac,
             partialEncryption := md.partialEncryption, macOnlyEncrypted := md.macOnlyEncrypted }, key, saved)

/-- `RopsFileMetadata::encrypt` and `encrypt_with_saved_mac_nonce` (core.rs:139-167). -/
def Env.encryptMetadata (env : Env) (key : Bytes) (saved : Option SavedMacNonce) (md : Metadata Mac) (i : Nat) :
    Except Unit (Metadata EncValue × Nat) :=
  match Mac.encrypt env.C env.nonce key md.lastModified saved md.mac i with
  | .error e => .error e
  | .ok (mac, i) =>
    .ok ({ integration := md.integration, lastModified := md.lastModified, mac,
           partialEncryption := md.partialEncryption, macOnlyEncrypted := md.macOnlyEncrypted }, i)

/-- `SavedParameters` (crates/lib/src/file/saved_parameters.rs). -/
structure SavedParameters where
  dataKey : Bytes
  mapNonces : SavedNonces
  macNonce : SavedMacNonce

end Rops
