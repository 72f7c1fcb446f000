import Verif.Model.Scenario

/-!
# Demand calls in blocks (C41)
-/

namespace UX

/-- `ds` lists the calls function by function: the calls of each demand function are consecutive. -/
def Blocks (ds : List DemandCall) (blocks : List (DemandKind × List DemandCall)) : Prop :=
  ds = blocks.flatMap (·.2) ∧ (blocks.map (·.1)).Nodup ∧
    ∀ b ∈ blocks, b.2 ≠ [] ∧ ∀ c ∈ b.2, c.kind = b.1

end UX
