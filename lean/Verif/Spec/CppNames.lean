import Verif.Model.CppNames

/-!
# What it means that Python and the engine agree on nodes and links (C117)
-/

namespace UX
namespace Cpp
namespace Spec

/-- Python and the engine have the same nodes and links under the same numbers and names, and the same ends. -/
structure Agree (W : Names) : Prop where
  nNum : W.c.g.nNodes = W.nodes.length
  nPtr : W.nPtr = List.range W.nodes.length
  lNum : W.c.g.nLinks = W.links.length
  lPtr : W.lPtr = List.range W.links.length
  nNames : W.nodes.Nodup
  lNames : W.links.Nodup
  /-- a name stands for the same node in both registries -/
  nLook : ∀ s i, (W.nDict s = some i ↔ W.nodes[i]? = some s) ∧ (W.nMap s = some i ↔ W.nodes[i]? = some s)
  lLook : ∀ s j, (W.lDict s = some j ↔ W.links[j]? = some s) ∧ (W.lMap s = some j ↔ W.links[j]? = some s)
  nEnds : W.ends.length = W.links.length
  ends : ∀ j < W.links.length, ∃ s < W.nodes.length, ∃ e < W.nodes.length,
    W.ends[j]? = some (some s, some e) ∧ (W.c.link j).src = s ∧ (W.c.link j).dst = e

end Spec
end Cpp
end UX
