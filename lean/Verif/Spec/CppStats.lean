import Verif.Model.CppStats
import Verif.Spec.CppLog
import Mathlib.Algebra.BigOperators.Group.Finset.Basic

/-!
# Specification: statistics of the C++ engine in terms of the vehicle logs
-/

namespace UX.Cpp.Spec
open CWorld

/-- Entries of the log of a vehicle that say that it is on link `l`. -/
def entriesOn (V : CVeh) (l : ℕ) : List CLog := V.log.filter (fun e => e.link = some l)

/-- Number of log entries on link `l`, of all vehicles. -/
def countOn (W : CWorld) (l : ℕ) : ℕ := ∑ v ∈ Finset.range W.g.nVehs, (entriesOn (W.veh v) l).length

/-- Sum of the speeds in the log entries on link `l`, of all vehicles. -/
def speedOn (W : CWorld) (l : ℕ) : ℚ := ∑ v ∈ Finset.range W.g.nVehs, ((entriesOn (W.veh v) l).map CLog.v).sum

/-- Number of time steps in state `s` that the log of vehicle `v` shows when it is read. -/
def timesIn (W : CWorld) (v : ℕ) (s : VState) : ℕ := ((readLog W v).filter (fun p => p.2 = s)).length

/-- Number of time steps that vehicles wait at their origin `n`. -/
def waitsAt (W : CWorld) (n : ℕ) : ℕ :=
  ∑ v ∈ (Finset.range W.g.nVehs).filter (fun v => (W.veh v).orig = n), timesIn W v .wait

/-- Sum of the speeds in the log entries on the road, of vehicle `v`. -/
def speedOf (W : CWorld) (v : ℕ) : ℚ := (((W.veh v).log.filter (fun e => e.link.isSome)).map CLog.v).sum

/-- Vehicles on the road. -/
def onRoad (W : CWorld) : Finset ℕ := (Finset.range W.g.nVehs).filter (fun v => (W.veh v).state = .run)

end UX.Cpp.Spec
