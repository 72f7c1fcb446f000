import Verif.Spec.Carry

/-!
# Specification: no vehicle is held up without reason (C107)
-/

namespace UX.PySpec
open World

/-- Link `l` can take one more vehicle: it has fewer vehicles than lanes, or the vehicle `lanes` places from
the end has driven more than the jam spacing; and there is inflow capacity left. -/
def HasRoom (W : World) (l : LinkId) : Prop :=
  ((W.L.vehs l).length < W.L.lanes l ∨
    ∃ u, (W.L.vehs l)[(W.L.vehs l).length - W.L.lanes l]? = some u ∧ jam W l < W.V.x u) ∧
  (W.cfg.deltan : ℚ) ≤ W.L.capInRem l

/-- Vehicle `v` is the first on link `a`, waits at its end and wants to continue on `b`. -/
structure FirstFor (W : World) (v : VehId) (a b : LinkId) : Prop where
  first : (W.L.vehs a).head? = some v
  waits : v ∈ W.N.incoming (W.L.endN a)
  next : W.V.rnl v = .to b

/-- Link `a` may discharge a vehicle: there is outflow capacity left and the signal is green. -/
def MayLeave (W : World) (a : LinkId) : Prop :=
  (W.cfg.deltan : ℚ) ≤ W.L.capOutRem a ∧
  (W.N.phase (W.L.endN a) ∈ W.L.signalGroup a ∨ (W.N.signal (W.L.endN a)).length ≤ 1)

end UX.PySpec
