import Verif.Model.Metadata
import Verif.Model.MapCrypt
import Verif.Model.Format
/-!
# Files

Models crates/lib/src/file/core.rs and crates/lib/src/file/builder/.
-/

namespace Rops

/-- `RopsFile` (crates/lib/src/file/core.rs:11-19): a map in its format and metadata. -/
structure File (F : Format) (M : Type) where
  map : F.Map
  metadata : Metadata M

/-- `RopsFile<EncryptedFile, F>`. -/
abbrev EncFile (F : Format) := File F EncValue

/-- `RopsFile<DecryptedFile, F>`. -/
abbrev DecFile (F : Format) := File F Mac

/-- `RopsFileEncryptError` (crates/lib/src/file/error.rs:6-17); `panic` is the panic of the
JSON conversion on infinite or NaN floats. -/
inductive FileEncryptError where
  | format (e : FormatError)
  | retrieval (e : RetrievalError)
  | mapEncryption
  | metadataEncryption
  | panic
deriving DecidableEq, Repr

/-- `RopsFileDecryptError` (error.rs:20-29). -/
inductive FileDecryptError where
  | format (e : FormatError)
  | value (e : DecryptValueError)
  | metadata (e : MetadataDecryptError)
  | macMismatch (computed stored : Str)
  | panic
deriving DecidableEq, Repr

/-- `RopsFileAddKeyError` (error.rs:32-37). -/
inductive AddKeyError where
  | retrieval (e : RetrievalError)
  | addKey (e : IntegrationError)
deriving DecidableEq, Repr

/-- What map encryption needs of the environment. -/
def Env.encEnv (env : Env) (key : Bytes) (saved : Option SavedNonces) : EncEnv :=
  { C := env.C, rx := env.rx, key, saved, tape := env.nonce }

/-- What map decryption needs of the environment. -/
def Env.decEnv (env : Env) (key : Bytes) : DecEnv := { C := env.C, fl := env.fl, key }

/-- The MAC of a map under the settings of a metadata (core.rs:88-91,167-173). -/
def Env.macOf {M : Type} (env : Env) (md : Metadata M) (m : RMap Value) : Mac :=
  Mac.compute env.H env.rx (MacConfig.new md.macOnlyEncrypted md.partialEncryption) m

/-- `RopsFile::add_keys` (core.rs:45-51), for encrypted and decrypted files. Returns the
result, the file afterwards and the next position of the tape. -/
def File.addKeys {F : Format} {M : Type} (env : Env) (k : Kind) (ids : List k.Id) (f : File F M) (i : Nat) :
    Except AddKeyError Unit × File F M × Nat :=
  match env.retrieveDataKey f.metadata with
  | .error e => (.error (.retrieval e), f, i)
  | .ok key => match env.addKeys k key ids f.metadata.integration i with
    | (.error e, im, i) => (.error (.addKey e), { f with metadata := { f.metadata with integration := im } }, i)
    | (.ok (), im, i) => (.ok (), { f with metadata := { f.metadata with integration := im } }, i)

/-- Result of `set_map`. -/
inductive SetMapError where
  | format (e : FormatError)
  | panic
deriving DecidableEq, Repr

/-- `RopsFile::set_map` (core.rs:81-96). -/
def DecFile.setMap {F : Format} (env : Env) (f : DecFile F) (other : F.Map) (i : Nat) :
    Except SetMapError (DecFile F) :=
  let lastModified := if !F.eq f.map other then (env.clock i).truncate else f.metadata.lastModified
  match F.toInternal other with
  | .error e => .error (.format e)
  | .ok m => match F.ofInternal m with
    | none => .error .panic
    | some map =>
      .ok { map, metadata := { f.metadata with lastModified, mac := env.macOf f.metadata m } }

/-- `RopsFile::remove_integration_key` (core.rs:99-101). -/
def DecFile.removeKey {F : Format} (env : Env) (k : Kind) (id : k.Id) (f : DecFile F) (i : Nat) :
    Except IntegrationError (Option (IUnit k)) × DecFile F × Nat :=
  match env.removeKey k id f.metadata.integration i with
  | (res, im, i) => (res, { f with metadata := { f.metadata with integration := im } }, i)

/-- The encryption of map and metadata and `from_parts_results` (core.rs:105-111,117-127,
182-190). Both encryptions are done before either result is looked at, an error of the map
is reported as an error of the metadata (core.rs:186). A panic in `to_external` comes last.
(Simplification: after a cipher error of the map the position of the tape does not
matter, the call fails.) -/
def DecFile.encryptWith {F : Format} (Fo : Format) (env : Env) (key : Bytes) (savedMap : Option SavedNonces)
    (savedMac : Option SavedMacNonce) (f : DecFile F) (i : Nat) : Except FileEncryptError (EncFile Fo × Nat) :=
  match F.toInternal f.map with
  | .error e => .error (.format e)
  | .ok m => match RMap.encrypt (env.encEnv key savedMap) f.metadata.partialEncryption m i with
    | .error () => .error .metadataEncryption
    | .ok (m', i) => match env.encryptMetadata key savedMac f.metadata i with
      | .error () => .error .metadataEncryption
      | .ok (md, i) => match Fo.encOfInternal env.C m' with
        | none => .error .panic
        | some map => .ok ({ map, metadata := md }, i)

/-- `RopsFile::encrypt` (core.rs:103-111). -/
def DecFile.encrypt {F : Format} (Fo : Format) (env : Env) (f : DecFile F) (i : Nat) :
    Except FileEncryptError (EncFile Fo × Nat) :=
  match env.retrieveDataKey f.metadata with
  | .error e => .error (.retrieval e)
  | .ok key => f.encryptWith Fo env key none none i

/-- `RopsFile::encrypt_with_saved_parameters` (core.rs:113-127). -/
def DecFile.encryptSaved {F : Format} (Fo : Format) (env : Env) (p : SavedParameters) (f : DecFile F) (i : Nat) :
    Except FileEncryptError (EncFile Fo × Nat) :=
  f.encryptWith Fo env p.dataKey (some p.mapNonces) (some p.macNonce) i

/-- `validate_mac` (core.rs:163-180). The error has the texts of both MACs, which panics for a
stored MAC that is not UTF-8 (mac/decrypted.rs:37-41); only a holder of the data key can
make such a file. The computed MAC is always UTF-8. -/
def Env.validateMac (env : Env) (m : RMap Value) (md : Metadata Mac) : Except FileDecryptError Unit :=
  if env.macOf md m != md.mac then
    match utf8? (env.macOf md m), utf8? md.mac with
    | some computed, some stored => .error (.macMismatch computed stored)
    | _, _ => .error .panic
  else .ok ()

/-- `RopsFile::decrypt` (core.rs:131-139). -/
def EncFile.decrypt {F : Format} (Fo : Format) (env : Env) (f : EncFile F) :
    Except FileDecryptError (DecFile Fo) :=
  match env.decryptMetadata f.metadata with
  | .error e => .error (.metadata e)
  | .ok (md, key, _) =>
    match F.encToInternal env.C env.rx (Resolved.ofConfig md.partialEncryption) f.map with
    | .error e => .error (.format e)
    | .ok m' => match RMap.decrypt (env.decEnv key) m' with
      | .error e => .error (.value e)
      | .ok m => match env.validateMac m md with
        | .error e => .error e
        | .ok () => match Fo.ofInternal m with
          | none => .error .panic
          | some map => .ok { map, metadata := md }

/-- `RopsFile::decrypt_and_save_parameters` (core.rs:142-161). -/
def EncFile.decryptAndSave {F : Format} (Fo : Format) (env : Env) (f : EncFile F) :
    Except FileDecryptError (DecFile Fo × SavedParameters) :=
  match env.decryptMetadata f.metadata with
  | .error e => .error (.metadata e)
  | .ok (md, key, macNonce) =>
    match F.encToInternal env.C env.rx (Resolved.ofConfig md.partialEncryption) f.map with
    | .error e => .error (.format e)
    | .ok m' => match RMap.decryptAndSave (env.decEnv key) m' with
      | .error e => .error (.value e)
      | .ok (m, mapNonces) => match env.validateMac m md with
        | .error e => .error e
        | .ok () => match Fo.ofInternal m with
          | none => .error .panic
          | some map => .ok ({ map, metadata := md }, { dataKey := key, mapNonces, macNonce })

/-! ## Builder -/

/-- `RopsFileBuilder` (crates/lib/src/file/builder/core.rs:3-8) with the key ids of
`IntegrationMetadataBuilder` (builder/integration_metadata.rs:10-15). -/
structure Builder (F : Format) where
  map : F.Map
  partialEncryption : Option PartialEncryption
  macOnlyEncrypted : Option Bool
  ageKeyIds : List (Kind.Id .age)
  kmsKeyIds : List (Kind.Id .kms)

/-- `RopsFileBuilder::from_map` (builder/core.rs:23-30). -/
def Builder.fromMap {F : Format} (map : F.Map) : Builder F :=
  { map, partialEncryption := none, macOnlyEncrypted := none, ageKeyIds := [], kmsKeyIds := [] }

/-- `with_partial_encryption` (builder/core.rs:32-35). -/
def Builder.withPartialEncryption {F : Format} (b : Builder F) (p : PartialEncryption) : Builder F :=
  { b with partialEncryption := some p }

/-- `mac_only_encrypted` (builder/core.rs:37-40). -/
def Builder.setMacOnlyEncrypted {F : Format} (b : Builder F) : Builder F :=
  { b with macOnlyEncrypted := some true }

/-- `add_integration_key` (builder/core.rs:42-45; age.rs:104-108, aws_kms/key_id.rs:38-42). -/
def Builder.addKey {F : Format} (b : Builder F) : (k : Kind) → k.Id → Builder F
  | .age, id => { b with ageKeyIds := b.ageKeyIds ++ [id] }
  | .kms, id => { b with kmsKeyIds := b.kmsKeyIds ++ [id] }

/-- `add_integration_keys` (builder/core.rs:47-52). -/
def Builder.addKeys {F : Format} (b : Builder F) (k : Kind) (ids : List k.Id) : Builder F :=
  ids.foldl (fun b id => b.addKey k id) b

/-- `RopsFileBuilderError` (builder/core.rs:11-16) with
`IntegrationMetadataBuilderError` (builder/integration_metadata.rs:18-23). -/
inductive BuilderError where
  | encrypt (e : FileEncryptError)
  | integration (e : IntegrationError)
  | missingKeys
deriving DecidableEq, Repr

/-- `into_integration_metadata` (builder/integration_metadata.rs:26-55). -/
def KeyEnv.intoMetadata (env : KeyEnv) (age : List (Kind.Id .age)) (kms : List (Kind.Id .kms)) (dataKey : Bytes)
    (i : Nat) : Except BuilderError (IntegrationMetadata × Nat) :=
  if age.isEmpty && kms.isEmpty then .error .missingKeys
  else match env.addKeys .age dataKey age .empty i with
    | (.error e, _, _) => .error (.integration e)
    | (.ok (), im, i) => match env.addKeys .kms dataKey kms im i with
      | (.error e, _, _) => .error (.integration e)
      | (.ok (), im, i) => .ok (im, i)

/-- `RopsFileBuilder::encrypt` (builder/core.rs:54-81). The result of the map encryption is
looked at only after the integration metadata is made. (Simplification as in
`DecFile.encryptWith`.) -/
def Builder.encrypt {F : Format} (env : Env) (b : Builder F) (i : Nat) : Except BuilderError (EncFile F × Nat) :=
  let key := env.newKey i
  match F.toInternal b.map with
  | .error e => .error (.encrypt (.format e))
  | .ok m =>
    let mac := Mac.compute env.H env.rx (MacConfig.new b.macOnlyEncrypted b.partialEncryption) m
    let mapRes := RMap.encrypt (env.encEnv key none) b.partialEncryption m (i + 1)
    let i := match mapRes with
      | .ok (_, i) => i
      | .error () => i + 1
    match env.intoMetadata b.ageKeyIds b.kmsKeyIds key i with
    | .error e => .error e
    | .ok (integration, i) =>
      let md : Metadata Mac :=
        { integration, lastModified := (env.clock i).truncate, mac
          partialEncryption := b.partialEncryption, macOnlyEncrypted := b.macOnlyEncrypted }
      match mapRes, env.encryptMetadata key none md i with
      | .ok (m', _), .ok (md, i) => match F.encOfInternal env.C m' with
        | none => .error (.encrypt .panic)
        | some map => .ok ({ map, metadata := md }, i)
      | _, _ => .error (.encrypt .metadataEncryption)

end Rops
