import Verif.Model.Document
/-!
# Specification: characters that a terminal does not obey
-/

namespace Rops.Spec

/-- A line break, or no control character of ASCII other than the last one (which erases a character on paper tape). -/
def Tame (c : Char) : Prop := c = '\n' ∨ 32 ≤ c.toNat

/-- A line break, a tabulator, or no control character of ASCII. -/
def Quiet (c : Char) : Prop := c = '\n' ∨ c = '\t' ∨ (32 ≤ c.toNat ∧ c.toNat ≠ 127)

end Rops.Spec
