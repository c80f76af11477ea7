import Verif.Spec.File
/-!
# Histories of a file

A history is the list of all versions a file has had, the latest first. Each operation may
run in another process (with other private keys) and draws random numbers that were not drawn
by the operations before it.
-/

namespace Rops.Spec

/-- A version of a file, with the map that was set last and the data key made last. -/
structure Version (F : Format) where
  file : EncFile F
  map : RMap Value
  key : Bytes

/-- The versions of a file and the next unused position of the random tape. -/
inductive History (env : Env) {F : Format} (rep : Value → Prop) : List (Version F) → Nat → Prop
  /-- `RopsFileBuilder::encrypt` -/
  | create {b : Builder F} {m : RMap Value} {f : EncFile F} {i j : Nat} (host : Host) :
    F.toInternal b.map = .ok m → Fits env.fl rep b.partialEncryption m →
    b.encrypt (env.withHost host) i = .ok (f, j) → History env rep [⟨f, m, env.newKey i⟩] j
  /-- `add_keys` on the encrypted file -/
  | addKeys {v : Version F} {vs : List (Version F)} {n i j : Nat} {k : Kind} {ids : List k.Id} {f : EncFile F}
    (host : Host) : History env rep (v :: vs) n → n ≤ i →
    v.file.addKeys (env.withHost host) k ids i = (.ok (), f, j) → History env rep (⟨f, v.map, v.key⟩ :: v :: vs) j
  /-- an edit: `decrypt_and_save_parameters`, `set_map`, `encrypt_with_saved_parameters` -/
  | edit {v : Version F} {vs : List (Version F)} {n c i j : Nat} {g g' : DecFile F} {p : SavedParameters} {other : F.Map}
    {m : RMap Value} {f : EncFile F} (host host' : Host) : History env rep (v :: vs) n → n ≤ i →
    v.file.decryptAndSave F (env.withHost host) = .ok (g, p) →
    F.toInternal other = .ok m → Fits env.fl rep v.file.metadata.partialEncryption m →
    g.setMap (env.withHost host') other c = .ok g' →
    g'.encryptSaved F (env.withHost host') p i = .ok (f, j) → History env rep (⟨f, m, v.key⟩ :: v :: vs) j
  /-- a replacement without saved parameters: `decrypt`, `set_map`, `encrypt` -/
  | replace {v : Version F} {vs : List (Version F)} {n c i j : Nat} {g g' : DecFile F} {other : F.Map}
    {m : RMap Value} {f : EncFile F} (host host' : Host) : History env rep (v :: vs) n → n ≤ i →
    v.file.decrypt F (env.withHost host) = .ok g →
    F.toInternal other = .ok m → Fits env.fl rep v.file.metadata.partialEncryption m →
    g.setMap (env.withHost host') other c = .ok g' →
    g'.encrypt F (env.withHost host') i = .ok (f, j) → History env rep (⟨f, m, v.key⟩ :: v :: vs) j
  /-- removal of a key: `decrypt`, `remove_integration_key`, `encrypt` -/
  | removeKey {v : Version F} {vs : List (Version F)} {n i j i' j' : Nat} {g g' : DecFile F} {k : Kind} {id : k.Id}
    {u : IUnit k} {f : EncFile F} (host host' : Host) : History env rep (v :: vs) n → n ≤ i →
    v.file.decrypt F (env.withHost host) = .ok g →
    g.removeKey (env.withHost host') k id i = (.ok (some u), g', j) → j ≤ i' →
    g'.encrypt F (env.withHost host') i' = .ok (f, j') → History env rep (⟨f, v.map, env.newKey i⟩ :: v :: vs) j'
  /-- the same for a key that is not there -/
  | removeAbsent {v : Version F} {vs : List (Version F)} {n i j i' j' : Nat} {g g' : DecFile F} {k : Kind} {id : k.Id}
    {f : EncFile F} (host host' : Host) : History env rep (v :: vs) n → n ≤ i →
    v.file.decrypt F (env.withHost host) = .ok g →
    g.removeKey (env.withHost host') k id i = (.ok none, g', j) → j ≤ i' →
    g'.encrypt F (env.withHost host') i' = .ok (f, j') → History env rep (⟨f, v.map, v.key⟩ :: v :: vs) j'

/-- What is encrypted: a value at a key path (by the text that is authenticated with it), or
the MAC. -/
inductive Content where
  | value (path : Str) (v : Value)
  | mac (text : Bytes)

/-- The version contains an encryption of `c` with the nonce. -/
def Version.Uses (env : Env) {F : Format} (v : Version F) (nonce : Bytes) (c : Content) : Prop :=
  (∃ (m' : RMap EncLeaf) (a : Nat) (p : List Str) (e : EncValue) (x : Value),
    F.encToInternal env.C env.rx (Resolved.ofConfig v.file.metadata.partialEncryption) v.file.map = .ok m' ∧
    (leaves m')[a]? = some (p, .encrypted e) ∧ (leaves v.map)[a]? = some (p, x) ∧
    nonce = e.nonce ∧ c = .value (pathText p) x) ∨
  (nonce = v.file.metadata.mac.nonce ∧ c = .mac (macText env.H env.rx v.file.metadata.partialEncryption
    v.file.metadata.macOnlyEncrypted v.map))

end Rops.Spec
