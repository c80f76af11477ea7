import Verif.Spec.File
/-!
# Changed metadata

Encrypted files whose age units or settings someone without a key has replaced.
-/

namespace Rops.Spec

/-- The file with other age units. -/
def withAgeUnits {F : Format} {M : Type} (f : File F M) (us : Units .age) : File F M :=
  { f with metadata := { f.metadata with integration := { f.metadata.integration with age := us } } }

/-- The file with another partial encryption setting. -/
def withSetting {F : Format} {M : Type} (f : File F M) (cfg : Option PartialEncryption) : File F M :=
  { f with metadata := { f.metadata with partialEncryption := cfg } }

/-- The file with another value of `mac_only_encrypted`. -/
def withMacOnly {F : Format} {M : Type} (f : File F M) (only : Option Bool) : File F M :=
  { f with metadata := { f.metadata with macOnlyEncrypted := only } }

/-- The process has the age identities `ks`. -/
def HasIdentities (env : Env) (ks : List env.A.Identity) : Prop :=
  retrievePrivateKeys (Age.parsePrivateKey env.A) env.host c!"age" = .ok ks

end Rops.Spec
