import Verif.Model.CppBuild

/-!
# Specification: cumulative curves of the C++ engine
-/

namespace UX.Cpp.Spec
open CWorld

/-- Multiples of `delta_n` are not rounded (true for `double` and an integral `delta_n` as long as the
counts stay below 2^53; true in exact arithmetic). -/
def ExactCounts (g : CGlob) : Prop := ∀ k : ℕ, g.fl (k * g.deltaN) = k * g.deltaN

/-- A call of the bindings that did not throw and did not cut off the time steps already simulated. -/
inductive CleanStep : CWorld → CWorld → Prop
  | node (W W' : CWorld) (ints : List ℚ) (off cap : ℚ) (lanes : ℤ) (rng : ℕ → ℕ) (fuel : ℕ)
      (h : W.addNode ints off cap lanes rng fuel = some W') : CleanStep W W'
  | link (W : CWorld) (src dst : ℕ) (a : LinkArgs) (hs : src < W.g.nNodes)
      (hd : dst < W.g.nNodes) (hl : 1 ≤ a.lanes)
      (hr : ∀ v, v < W.g.nVehs → (W.veh v).state ≠ .run) : CleanStep W (W.addLink src dst a)
  | vehicle (W : CWorld) (dep : ℚ) (orig dest : ℕ) (prefer : List ℕ) (ho : orig < W.g.nNodes)
      (hd : dest < W.g.nNodes) : CleanStep W (W.addVehicle dep orig dest prefer)
  | tmax (W : CWorld) (t : ℚ) (h : W.g.timestep ≤ (W.setTMax t).g.totalSteps) : CleanStep W (W.setTMax t)
  | init (W : CWorld) : CleanStep W W.initAdj
  | edit (W : CWorld) (e : Edit) : CleanStep W (W.edit e)
  | run (W W' : CWorld) (endTs : ℕ) (sched : ℕ → CWorld → Sched) (hs : ∀ t V, (sched t V).Valid V)
      (h : W.mainLoop sched endTs = (W', none)) : CleanStep W W'

/-- Worlds that arise by such calls. -/
inductive CleanReach : CWorld → Prop
  | empty (fl : ℚ → ℚ) (tMax deltaN tau duoTime duoWeight noise : ℚ)
      (hardDet gradual noCyclic adjustCap logMode : Bool) (ttInterval : ℕ) :
      CleanReach (CWorld.empty fl tMax deltaN tau duoTime duoWeight noise hardDet gradual noCyclic
        adjustCap logMode ttInterval)
  | step {W W' : CWorld} : CleanReach W → CleanStep W W' → CleanReach W'

theorem CleanStep.toStep {W W' : CWorld} (h : CleanStep W W') : CStep W W' := by
  cases h with
  | node W' ints off cap lanes rng fuel h => exact CStep.node W W' ints off cap lanes rng fuel h
  | link src dst a hs hd hl hr => exact CStep.link W src dst a hs hd hl hr
  | vehicle dep orig dest prefer ho hd => exact CStep.vehicle W dep orig dest prefer ho hd
  | tmax t h => exact CStep.tmax W t
  | init => exact CStep.init W
  | edit e => exact CStep.edit W e
  | run W' endTs sched hs h =>
    have := CStep.run W endTs sched hs
    rw [h] at this; exact this

theorem CleanReach.toReach {W : CWorld} (h : CleanReach W) : CReach W := by
  induction h with
  | empty fl tMax deltaN tau duoTime duoWeight noise hardDet gradual noCyclic adjustCap logMode ttInterval =>
    exact CReach.empty fl tMax deltaN tau duoTime duoWeight noise hardDet gradual noCyclic adjustCap
      logMode ttInterval
  | step _ s ih => exact CReach.step ih s.toStep

/-- After the last completed time step the vehicles counted in and not counted out of link `l` are
those in its queue. -/
def Balanced (W : CWorld) (l : ℕ) : Prop :=
  ∀ s, s + 1 = W.g.timestep →
    (W.link l).arr s - (W.link l).dep s = W.g.deltaN * (W.link l).vehs.length

/-- The curves of link `l` up to the last completed time step are those of two counters, the second
one never ahead of the first. -/
def CurvesOK (W : CWorld) (l : ℕ) : Prop :=
  ∃ A D : ℕ → ℕ, Monotone A ∧ Monotone D ∧ (∀ s, D s ≤ A s) ∧
    ∀ s, s < W.g.timestep → (W.link l).arr s = A s * W.g.deltaN ∧ (W.link l).dep s = D s * W.g.deltaN

end UX.Cpp.Spec
