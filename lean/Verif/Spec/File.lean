import Verif.Spec.Keys
import Verif.Spec.Format
import Verif.Model.File
/-!
# Specification vocabulary for files
-/

namespace Rops

/-- The same environment in another process: other environment variables and files, hence
other private keys. -/
def Env.withHost (env : Env) (h : Host) : Env := { env with host := h }

namespace Spec

/-- What is assumed of the world outside of rops. -/
structure EnvLaws (env : Env) : Prop where
  cipher : env.C.Lawful
  hasher : env.H.Streaming
  age : AgeLaws env.A
  kms : KmsLaws env.K
  /-- `Nonce::new` makes nonces of the size of the cipher (a type in the code) -/
  nonce_length : ∀ i, (env.nonce i).length = env.C.nonceSize
  /-- `DataKey::new` makes keys of 32 bytes (a type in the code) -/
  key_length : ∀ i, (env.newKey i).length = dataKeySize

/-- The relation holds between the elements of two lists of the same length. -/
inductive Zip {α β : Type} (R : α → β → Prop) : List α → List β → Prop
  | nil : Zip R [] []
  | cons {a b l l'} : R a b → Zip R l l' → Zip R (a :: l) (b :: l')

/-- `e` is the encryption of the value at the key path `p`. -/
def Seals (C : Cipher) (key : Bytes) (p : List Str) (v : Value) (e : EncValue) : Prop :=
  C.encrypt e.nonce key (plainBytes v) (utf8 (pathText p)) = some (e.data, e.tag) ∧ e.variant = v.variant ∧ e.Sized C

/-- The second leaf is how the first one is stored: in plaintext if the setting says so for
its key path, encrypted otherwise. -/
def StoredAs (C : Cipher) (rx : RegexMatch) (key : Bytes) (cfg : Option PartialEncryption)
    (pv : List Str × Value) (pl : List Str × EncLeaf) : Prop :=
  pl.1 = pv.1 ∧ ((Plain rx cfg pv.1 ∧ pl.2 = .escaped pv.2) ∨
    (¬ Plain rx cfg pv.1 ∧ ∃ e, pl.2 = .encrypted e ∧ Seals C key pv.1 pv.2 e))

/-- The map `m'` is an encryption of `m`. -/
def Sealed (C : Cipher) (rx : RegexMatch) (key : Bytes) (cfg : Option PartialEncryption) (m : RMap Value)
    (m' : RMap EncLeaf) : Prop :=
  shapeMap m' = shapeMap m ∧ Zip (StoredAs C rx key cfg) (leaves m) (leaves m')

/-- The maps this development speaks about: float texts are canonical, the format can hold
all values, and with a partial encryption setting the keys are decided alike by encryption and
reading (see C08). -/
structure Fits (fl : FloatOps) (rep : Value → Prop) (cfg : Option PartialEncryption) (m : RMap Value) : Prop where
  canonical : Canonical fl m
  holds : Holds rep m
  keys : cfg ≠ none → KeysAgree cfg m

/-- The text of the MAC of a map: the upper case hex digest of the covered bytes. -/
def macText (H : Hasher) (rx : RegexMatch) (cfg : Option PartialEncryption) (only : Option Bool) (m : RMap Value) :
    Bytes :=
  utf8 (hex (H.digest (macInput rx cfg (only.getD false) m)))

/-- The file is an encryption of the map `m` under the data key `key`: every unit wraps that
key, the map of the file is read as `m'`, which is an encryption of `m`, and the MAC of the
file is an encryption of the MAC of `m` for the last modified date. -/
structure Holding (env : Env) {F : Format} (rep : Value → Prop) (f : EncFile F) (key : Bytes) (m : RMap Value)
    (m' : RMap EncLeaf) : Prop where
  key_length : key.length = dataKeySize
  units : AllWrap env.A env.K f.metadata.integration key
  ids : ∀ k, (keyIds f.metadata.integration k).Nodup
  fits : Fits env.fl rep f.metadata.partialEncryption m
  read : F.encToInternal env.C env.rx (Resolved.ofConfig f.metadata.partialEncryption) f.map = .ok m'
  written : F.encOfInternal env.C m' = some f.map
  sealed : Sealed env.C env.rx key f.metadata.partialEncryption m m'
  mac : env.C.encrypt f.metadata.mac.nonce key
      (macText env.H env.rx f.metadata.partialEncryption f.metadata.macOnlyEncrypted m)
      f.metadata.lastModified.toBytes = some (f.metadata.mac.data, f.metadata.mac.tag)
  mac_type : f.metadata.mac.variant = .string
  mac_sized : f.metadata.mac.Sized env.C

/-- A decrypted file that holds the map `m` and its MAC. -/
structure Plaintext (env : Env) {F : Format} (g : DecFile F) (m : RMap Value) : Prop where
  read : F.toInternal g.map = .ok m
  mac : g.metadata.mac = macText env.H env.rx g.metadata.partialEncryption g.metadata.macOnlyEncrypted m

/-- The metadata of a decrypted file next to those of the encrypted one. -/
def decMetadata {M N : Type} (md : Metadata M) (mac : N) : Metadata N :=
  { integration := md.integration, lastModified := md.lastModified, mac
    partialEncryption := md.partialEncryption, macOnlyEncrypted := md.macOnlyEncrypted }

end Spec
end Rops
