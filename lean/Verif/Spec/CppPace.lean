import Verif.Spec.CppKin

/-!
# Specification: driving times in the C++ engine
-/

namespace UX.Cpp.Spec
open CWorld

/-- The time that a vehicle needs on link `l` at free-flow speed; the engine lets a vehicle go on when it is
within `10⁻⁹` of the end of the link. -/
def freeTime (W : CWorld) (l : ℕ) : ℚ := ((W.link l).len - 1 / 1000000000) / (W.link l).vmax

/-- The time that a vehicle needs on the links `ls` at free-flow speed. -/
def freeTimes (W : CWorld) (ls : List ℕ) : ℚ := (ls.map (freeTime W)).sum

/-- Exact arithmetic; time goes on; every link has a positive speed and is not shorter than the tolerance of
the engine. -/
structure Roads (W : CWorld) : Prop where
  fl : W.g.fl = id
  dt : 0 ≤ W.g.deltaT
  link : ∀ l, l < W.g.nLinks → 0 < (W.link l).vmax ∧ 1 / 1000000000 ≤ (W.link l).len

/-- `W'` arises from `W` by completed runs, one after the other. -/
inductive Goes (W : CWorld) : CWorld → Prop
  | none : Goes W W
  | run {V V' : CWorld} (h : Goes W V) (sched : ℕ → CWorld → Sched) (hs : ∀ t V, (sched t V).Valid V) (endTs : ℕ)
      (hr : V.mainLoop sched endTs = (V', Option.none)) : Goes W V'

end UX.Cpp.Spec
