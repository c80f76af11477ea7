import Verif.Spec.JsonFiles
import Verif.Spec.Changes
/-!
# Floats of JSON files that are written and read
-/

namespace Rops.Spec

/-- The float that is read for what is written for a float. -/
def readAnew (J : JsonFloats) (f : Str) : Str := (J.read (J.write f)).getD f

/-- The leaf that is found in the text of a file: floats in plaintext are read anew, all else is as it was. -/
def rereadLeaf (J : JsonFloats) : EncLeaf → EncLeaf
  | .escaped (.float f) => .escaped (.float (readAnew J f))
  | l => l

/-- The same for an item of a file. -/
def rereadItem (J : JsonFloats) (it : FileItem) : FileItem :=
  match it.leaf with
  | .escaped (.float f) => { path := it.path, leaf := .escaped (.float (readAnew J f)), value := .float (readAnew J f) }
  | _ => it

/-- What is written for the floats in plaintext are numbers that are read as floats. -/
def FloatsRead (J : JsonFloats) (m' : RMap EncLeaf) : Prop :=
  ∀ p f, (p, .escaped (.float f)) ∈ leaves m' → JsonNumber J (.float (readAnew J f)) (J.write f)

end Rops.Spec
