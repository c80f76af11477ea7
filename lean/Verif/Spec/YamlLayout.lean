import Verif.Spec.YamlFiles
/-!
# Specification of the layout of YAML documents
-/

namespace Rops.Spec

mutual
/-- How deep sequences and maps are nested. -/
def yamlNesting : Yaml → Nat
  | .seq l => yamlNestingSeq l + 1
  | .map m => yamlNestingMap m + 1
  | .tagged _ v => yamlNesting v
  | _ => 0
/-- See `yamlNesting`. -/
def yamlNestingSeq : List Yaml → Nat
  | [] => 0
  | v :: r => max (yamlNesting v) (yamlNestingSeq r)
/-- See `yamlNesting`. -/
def yamlNestingMap : List (Yaml × Yaml) → Nat
  | [] => 0
  | (k, v) :: r => max (max (yamlNesting k) (yamlNesting v)) (yamlNestingMap r)
end

end Rops.Spec
