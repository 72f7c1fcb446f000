import Verif.Spec.CppFlow

/-!
# Specification: positions and spacing in the C++ engine
-/

namespace UX.Cpp.Spec
open CWorld

/-- Distance that a queued vehicle needs behind its leader on link `l`: the jam spacing of one lane
for a platoon of `delta_n` vehicles. -/
def jamGap (W : CWorld) (l : ℕ) : ℚ := W.g.fl ((W.link l).deltaLane * W.g.deltaN)

/-- Every vehicle on link `l` is between its two ends. -/
def Inside (W : CWorld) (l : ℕ) : Prop :=
  ∀ v ∈ (W.link l).vehs, 0 ≤ (W.veh v).x ∧ (W.veh v).x ≤ (W.link l).len

/-- On a link with `k` lanes every vehicle is at least the jam spacing behind the one `k` places
ahead of it (as computed with the engine's own subtraction). -/
def Spaced (W : CWorld) (l : ℕ) : Prop :=
  ∀ i u v, (W.link l).vehs[i]? = some u → (W.link l).vehs[i + (W.link l).lanes]? = some v →
    (W.veh v).x ≤ W.g.fl ((W.veh u).x - jamGap W l)

/-- A call that gives no link a negative length and does not change the jam spacing of a link that
has vehicles on it. -/
def Careful (W W' : CWorld) : Prop :=
  (∀ l, l < W'.g.nLinks → 0 ≤ (W'.link l).len ∧ 0 ≤ (W'.link l).deltaLane) ∧
  ∀ l, (W.link l).vehs ≠ [] → (W'.link l).deltaLane = (W.link l).deltaLane

/-- Worlds that arise by careful calls that did not throw. -/
inductive SteadyReach : CWorld → Prop
  | empty (fl : ℚ → ℚ) (tMax deltaN tau duoTime duoWeight noise : ℚ)
      (hardDet gradual noCyclic adjustCap logMode : Bool) (ttInterval : ℕ) :
      SteadyReach (CWorld.empty fl tMax deltaN tau duoTime duoWeight noise hardDet gradual noCyclic
        adjustCap logMode ttInterval)
  | step {W W' : CWorld} : SteadyReach W → CleanStep W W' → Careful W W' → SteadyReach W'

theorem SteadyReach.toClean {W : CWorld} (h : SteadyReach W) : CleanReach W := by
  induction h with
  | empty fl tMax deltaN tau duoTime duoWeight noise hardDet gradual noCyclic adjustCap logMode ttInterval =>
    exact CleanReach.empty fl tMax deltaN tau duoTime duoWeight noise hardDet gradual noCyclic adjustCap
      logMode ttInterval
  | step _ s _ ih => exact CleanReach.step ih s

/-- Newell's law of car following on link `l`: from `x` the vehicle drives for one time step at
free-flow speed, at most to the jam spacing behind the position `ahead` of the vehicle in front, not
beyond the end of the link, and never backwards. -/
def newell (W : CWorld) (l : ℕ) (x : ℚ) (ahead : Option ℚ) : ℚ :=
  min (W.link l).len (max x
    (match ahead with
    | none => W.g.fl (x + W.g.fl ((W.link l).vmax * W.g.deltaT))
    | some y => min (W.g.fl (x + W.g.fl ((W.link l).vmax * W.g.deltaT))) (W.g.fl (y - jamGap W l))))

/-- Vehicle `v` is on link `l` before and after and entered no link in between. -/
def StaysOn (W W' : CWorld) (v l : ℕ) : Prop :=
  v ∈ (W.link l).vehs ∧ v ∈ (W'.link l).vehs ∧ (W'.veh v).count = (W.veh v).count

/-- One time step of a vehicle that stays on link `l`: the first vehicles of the lanes drive freely; the
others follow the position that the vehicle `lanes` places ahead had before, and may drive freely only if
that one leaves the link. -/
def Follows (W W' : CWorld) (v l : ℕ) : Prop :=
  ∀ i, (W.link l).vehs[i]? = some v →
    (i < (W.link l).lanes → (W'.veh v).x = newell W l (W.veh v).x none) ∧
    ∀ u, (W.link l).lanes ≤ i → (W.link l).vehs[i - (W.link l).lanes]? = some u →
      (W'.veh v).x = newell W l (W.veh v).x (some (W.veh u).x) ∨
      (W'.veh v).x = newell W l (W.veh v).x none ∧ ¬ StaysOn W W' u l

end UX.Cpp.Spec
