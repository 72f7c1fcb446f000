import Verif.Model.CppEntries
import Verif.Model.CppWrap
import Verif.Spec.CppRequest
import Verif.Spec.CppDta

/-!
# Specification: enter logs of links (C122)
-/

namespace UX.Cpp.Spec

/-- Vehicle `v` entered link `l` at time `t`, as `log_t_link` of the vehicle says. -/
def EnteredAt (c : CWorld) (l : ℕ) (t : ℚ) (v : ℕ) : Prop :=
  v < c.g.nVehs ∧ (t, WPlace.link l) ∈ (Wrap.buildLog c v).places

/-- The links follow each other. -/
def Consecutive (c : CWorld) (ks : List ℕ) : Prop := ks.IsChain (fun a b => (c.link a).dst = (c.link b).src)

/-- Mean travel time of the vehicles that entered link `l` between `t0` and `t1`. -/
def vehicleMean (c : CWorld) (l : ℕ) (t0 t1 : ℚ) : ℚ :=
  let es := (List.range c.g.nVehs).flatMap (fun v =>
    (c.enterLog v).filter (fun p => decide (p.1 = l ∧ t0 ≤ p.2 ∧ p.2 < t1)))
  (es.map (fun p => linkTime c l p.2)).sum / es.length

end UX.Cpp.Spec
