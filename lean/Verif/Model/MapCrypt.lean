import Verif.Model.Tree
import Verif.Model.Partial
/-!
# Encryption and decryption of maps

Models crates/lib/src/file/map/encrypt.rs and decrypt.rs. Input maps have
distinct keys, so `IndexMap::insert` into the fresh output map appends
(`IndexMap.build_eq` in Lemmas/Tree.lean); the output is built directly.
-/

namespace Rops

/-- What the encryption of a map depends on besides the map: the cipher, the regex
engine, the data key, the saved nonces (`None` for `encrypt`) and the random
nonces: `tape i` is the result of the `i`-th call of `Nonce::new`
(cryptography/nonce.rs:12-14). -/
structure EncEnv where
  C : Cipher
  rx : RegexMatch
  key : Bytes
  saved : Option SavedNonces
  tape : Nat → Bytes

/-- The nonce for a value, and the next position of the random tape
(encrypt.rs:95-97). -/
def EncEnv.nonceFor (env : EncEnv) (path : Str) (v : Value) (i : Nat) : Bytes × Nat :=
  match env.saved.bind fun s => s.get path v with
  | some n => (n, i)
  | none => (env.tape i, i + 1)

/-- Leaf case of `encrypt_tree_recursive` (encrypt.rs:92-100). -/
def EncEnv.encLeaf (env : EncEnv) (res : Resolved) (path : Str) (v : Value) (i : Nat) :
    Except Unit (EncLeaf × Nat) :=
  if res.escape then .ok (.escaped v, i)
  else
    let (nonce, i) := env.nonceFor path v i
    match v.encrypt env.C nonce env.key path with
    | some e => .ok (.encrypted e, i)
    | none => .error ()

mutual
/-- `encrypt_tree_recursive` (encrypt.rs:68-102); `.error ()` is a cipher error. -/
def encTree (env : EncEnv) (res : Resolved) (path : Str) : Tree Value → Nat → Except Unit (Tree EncLeaf × Nat)
  | .seq l, i => match encSeq env res path l i with
    | .ok (l, i) => .ok (.seq l, i)
    | .error e => .error e
  | .map m, i => match encMap env res path m i with
    | .ok (m, i) => .ok (.map m, i)
    | .error e => .error e
  | .null, i => .ok (.null, i)
  | .leaf v, i => match env.encLeaf res path v i with
    | .ok (l, i) => .ok (.leaf l, i)
    | .error e => .error e
/-- The elements of a sequence (encrypt.rs:77-82): all have the key path of the sequence. -/
def encSeq (env : EncEnv) (res : Resolved) (path : Str) :
    List (Tree Value) → Nat → Except Unit (List (Tree EncLeaf) × Nat)
  | [], i => .ok ([], i)
  | t :: r, i => match encTree env res path t i with
    | .ok (t, i) => match encSeq env res path r i with
      | .ok (r, i) => .ok (t :: r, i)
      | .error e => .error e
    | .error e => .error e
/-- `encrypt_map_recursive` (encrypt.rs:37-66). -/
def encMap (env : EncEnv) (res : Resolved) (path : Str) :
    RMap Value → Nat → Except Unit (RMap EncLeaf × Nat)
  | [], i => .ok ([], i)
  | (k, t) :: r, i =>
    let keyPath := KeyPath.join path k
    match encTree env (res.step env.rx (KeyPath.last keyPath)) keyPath t i with
    | .ok (t, i) => match encMap env res path r i with
      | .ok (r, i) => .ok ((k, t) :: r, i)
      | .error e => .error e
    | .error e => .error e
end

/-- `RopsMap::encrypt` and `encrypt_with_saved_nonces` (encrypt.rs:6-35): `env.saved`
is `none` resp. the saved nonces; `i` is the position of the random tape. -/
def RMap.encrypt (env : EncEnv) (cfg : Option PartialEncryption) (m : RMap Value) (i : Nat) :
    Except Unit (RMap EncLeaf × Nat) :=
  encMap env (Resolved.ofConfig cfg) [] m i

/-- What the decryption of a map depends on besides the map. -/
structure DecEnv where
  C : Cipher
  fl : FloatOps
  key : Bytes

/-- Leaf case of `decrypt_tree_recursive` (decrypt.rs:61-72). `none` as saved nonces
means that none are to be saved. -/
def DecEnv.decLeaf (env : DecEnv) (path : Str) (l : EncLeaf) (s : Option SavedNonces) :
    Except DecryptValueError (Value × Option SavedNonces) :=
  match l with
  | .encrypted e => match s with
    | some s => match e.decrypt env.C env.fl env.key path with
      | .ok v => .ok (v, some (s.insert path v e.nonce))
      | .error err => .error err
    | none => match e.decrypt env.C env.fl env.key path with
      | .ok v => .ok (v, none)
      | .error err => .error err
  | .escaped v => .ok (v, s)

mutual
/-- `decrypt_tree_recursive` (decrypt.rs:44-74). -/
def decTree (env : DecEnv) (path : Str) :
    Tree EncLeaf → Option SavedNonces → Except DecryptValueError (Tree Value × Option SavedNonces)
  | .seq l, s => match decSeq env path l s with
    | .ok (l, s) => .ok (.seq l, s)
    | .error e => .error e
  | .map m, s => match decMap env path m s with
    | .ok (m, s) => .ok (.map m, s)
    | .error e => .error e
  | .null, s => .ok (.null, s)
  | .leaf l, s => match env.decLeaf path l s with
    | .ok (v, s) => .ok (.leaf v, s)
    | .error e => .error e
/-- The elements of a sequence (decrypt.rs:51-55). -/
def decSeq (env : DecEnv) (path : Str) :
    List (Tree EncLeaf) → Option SavedNonces →
      Except DecryptValueError (List (Tree Value) × Option SavedNonces)
  | [], s => .ok ([], s)
  | t :: r, s => match decTree env path t s with
    | .ok (t, s) => match decSeq env path r s with
      | .ok (r, s) => .ok (t :: r, s)
      | .error e => .error e
    | .error e => .error e
/-- `decrypt_map_recursive` (decrypt.rs:25-42). -/
def decMap (env : DecEnv) (path : Str) :
    RMap EncLeaf → Option SavedNonces → Except DecryptValueError (RMap Value × Option SavedNonces)
  | [], s => .ok ([], s)
  | (k, t) :: r, s => match decTree env (KeyPath.join path k) t s with
    | .ok (t, s) => match decMap env path r s with
      | .ok (r, s) => .ok ((k, t) :: r, s)
      | .error e => .error e
    | .error e => .error e
end

/-- `RopsMap::decrypt` (decrypt.rs:6-8). -/
def RMap.decrypt (env : DecEnv) (m : RMap EncLeaf) : Except DecryptValueError (RMap Value) :=
  match decMap env [] m none with
  | .ok (m, _) => .ok m
  | .error e => .error e

/-- `RopsMap::decrypt_and_save_nonces` (decrypt.rs:10-16). -/
def RMap.decryptAndSave (env : DecEnv) (m : RMap EncLeaf) :
    Except DecryptValueError (RMap Value × SavedNonces) :=
  match decMap env [] m (some []) with
  | .ok (m, some s) => .ok (m, s)
  | .ok (m, none) => .ok (m, [])
  | .error e => .error e

end Rops
