import Verif.Model.Text
/-!
# Partial encryption

Models crates/lib/src/file/metadata/partial_encryption.rs.
-/

namespace Rops

/-- `Regex::is_match` on (pattern text, subject). The regex engine is not modelled. -/
abbrev RegexMatch := Str → Str → Bool

/-- `PartialEncryptionConfig` (partial_encryption.rs:6-14). A regex is identified by
its pattern text, as `PartialEq for RopsRegex` does (partial_encryption.rs:73-77). -/
inductive PartialEncryption where
  | encryptedSuffix (s : Str)
  | encryptedRegex (r : Str)
  | unencryptedSuffix (s : Str)
  | unencryptedRegex (r : Str)
deriving DecidableEq, Repr

/-- `ResolvedPartialEncryption` (partial_encryption.rs:36-39); the argument of `yes`
is `EscapeEncryption`. -/
inductive Resolved where
  | yes (escape : Bool)
  | no (cfg : PartialEncryption)
deriving DecidableEq, Repr

/-- `PartialEncryptionConfig::resolve` (partial_encryption.rs:20-32). -/
def PartialEncryption.resolve (rx : RegexMatch) (cfg : PartialEncryption) (key : Str) : Resolved :=
  let m : Option Bool := match cfg with
    | .encryptedSuffix s => if endsWith key s then some false else none
    | .encryptedRegex r => if rx r key then some false else none
    | .unencryptedSuffix s => if endsWith key s then some true else none
    | .unencryptedRegex r => if rx r key then some true else none
  match m with
  | some e => .yes e
  | none => .no cfg

/-- `ResolvedPartialEncryption::escape_encryption` (partial_encryption.rs:42-50). -/
def Resolved.escape : Resolved → Bool
  | .yes e => e
  | .no (.encryptedSuffix _) | .no (.encryptedRegex _) => true
  | .no (.unencryptedSuffix _) | .no (.unencryptedRegex _) => false

/-- `From<Option<&PartialEncryptionConfig>>` (partial_encryption.rs:53-60). -/
def Resolved.ofConfig : Option PartialEncryption → Resolved
  | some cfg => .no cfg
  | none => .yes false

/-- The step done for each map entry, `if let No(cfg) = resolved { resolved = cfg.resolve(key) }`
(map/encrypt.rs:49-51, mac/decrypted.rs:66-69, format/adapters.rs:78-82). -/
def Resolved.step (rx : RegexMatch) (r : Resolved) (key : Str) : Resolved :=
  match r with
  | .no cfg => cfg.resolve rx key
  | .yes e => .yes e

end Rops
