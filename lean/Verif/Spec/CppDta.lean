import Verif.Spec.CppTimes
import Verif.Spec.CppTrace

/-!
# Specification: costs of routes (C93) and congestion externality (C94)
-/

namespace UX.Cpp.Spec
open CWorld

/-- The position of time `t` in a series of `n` values, one for each time step; times before the first
time step and after the last count as these. -/
def stepIn (dt t : ℚ) (n : ℕ) : ℕ := min ⌊t / dt⌋₊ (n - 1)

/-- The travel time of link `l` when entering it in time step `i`: the last record of a vehicle that entered
in this time step or before, the value the link was created with if there is none. -/
def recordAt (W : CWorld) (l i : ℕ) : ℚ :=
  lastAt ((W.link l).ttReal.getD i ((W.link l).len / (W.link l).vmax)) i (W.link l).ttEvents

/-- The travel time of link `l` when entering it at time `t`. -/
def linkTime (W : CWorld) (l : ℕ) (t : ℚ) : ℚ :=
  recordAt W l (stepIn W.g.deltaT t (W.link l).ttReal.length)

/-- The toll of link `l` at time `t`: from the series if there is one, else the fixed one. -/
def tollAt (W : CWorld) (l : ℕ) (t : ℚ) : ℚ :=
  if (W.link l).toll = [] then (W.link l).penalty
  else (W.link l).toll.getD (stepIn W.g.deltaT t (W.link l).toll.length) 0

/-- A route driven from time `t` on: its links with the times at which they are entered, `q` being the
travel time of a link. -/
def drive (q : ℕ → ℚ → ℚ) : List ℕ → ℚ → List (ℕ × ℚ)
  | [], _ => []
  | l :: ls, t => (l, t) :: drive q ls (t + q l t)

/-- The sum of `c l t` over the links of a route driven from time `t` on. -/
def total (q c : ℕ → ℚ → ℚ) (ls : List ℕ) (t : ℚ) : ℚ := ((drive q ls t).map (fun p => c p.1 p.2)).sum

/-- The time step in which a vehicle that enters link `l` in time step `i` leaves it. -/
def leaves (W : CWorld) (l i : ℕ) : ℕ := i + ⌊recordAt W l i / W.g.deltaT⌋₊

/-- A vehicle that enters link `l` in time step `i` needs more than 1.01 times the free-flow time, and others
are on the link when it leaves (within the simulation). -/
def Congested (W : CWorld) (l i : ℕ) : Prop :=
  (W.link l).len / (W.link l).vmax * (101 / 100) < recordAt W l i ∧ leaves W l i < W.g.totalSteps ∧
    (W.link l).dep (leaves W l i) < (W.link l).arr (leaves W l i)

/-- `k` is the last time step in `1..out` at the end of which the count `d` was below that of time step `out`,
`out` itself if there is none. -/
def LastBelow (d : ℕ → ℚ) (out k : ℕ) : Prop :=
  (∀ i, k < i → i ≤ out → d out ≤ d i) ∧
  (1 ≤ k ∧ k < out ∧ d k < d out ∨ k = out ∧ ∀ i, 1 ≤ i → i ≤ out → d out ≤ d i)

/-- The delay charged for link `l` to a vehicle that enters it in time step `i`: the vehicles that enter later
while the congestion lasts, each delayed by the time between the departure of the vehicle and the one before. -/
def Charged (W : CWorld) (l i : ℕ) (x : ℚ) : Prop :=
  ∃ j out k : ℕ, i ≤ j ∧ (¬ Congested W l i → j = i) ∧
    (Congested W l i → (∀ s, i ≤ s → s ≤ j → Congested W l s) ∧ ¬ Congested W l (j + 1)) ∧
    out = min (leaves W l i + 1) (W.g.totalSteps - 1) ∧ LastBelow (W.link l).dep out k ∧
    x = ((out : ℚ) - k) * W.g.deltaT * ((W.link l).arr j - (W.link l).arr i)

end UX.Cpp.Spec
