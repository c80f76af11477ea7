import Verif.Spec.File
/-!
# Specification: texts that stand in other texts
-/

namespace Rops.Spec

/-- A text stands in another as it is. -/
def Within (b s : Str) : Prop := ∃ p q, s = p ++ (b ++ q)

/-- The name of a cipher has letters, digits and underscores only. -/
def NameOfWords (C : Cipher) : Prop := ∀ c ∈ C.name, c.isAlphanum = true ∨ c = '_'

end Rops.Spec
