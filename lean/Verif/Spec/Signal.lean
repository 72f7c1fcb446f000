import Mathlib.Data.Rat.Floor
import Mathlib.Algebra.BigOperators.Group.List.Basic

/-! Specification of fixed-time signals. -/

namespace UX

/-- Number of steps of length `dt` needed to exceed a green time `g`. -/
def greenSteps (dt g : ℚ) : ℕ := (⌊g / dt⌋ + 1).toNat

/-- Phase of a plan with phase durations `d` (in steps) in position `k` of its cycle. -/
def planIdx : List ℕ → ℕ → ℕ
  | [], _ => 0
  | x :: xs, k => if k < x then 0 else planIdx xs (k - x) + 1

/-- Phase of a periodic plan with phase durations `d` (in steps), `k` steps after the start of phase 0. -/
def planPhase (d : List ℕ) (k : ℕ) : ℕ := planIdx d (k % d.sum)

/-- Steps from the start of phase 0 to the start of phase `p`. -/
def planStart (d : List ℕ) (p : ℕ) : ℕ := (d.take p).sum

/-- Phase in step `i` of a signal with plan `g` that is in phase `p` with elapsed time `t`: phase `p` for
the remaining steps, then the periodic plan from phase `p+1` on. -/
def schedule (dt : ℚ) (g : List ℚ) (p : ℕ) (t : ℚ) (i : ℕ) : ℕ :=
  let r := (⌊(g.getD p 0 - t) / dt⌋ + 1).toNat
  if i < r then p else
    planPhase (g.map (greenSteps dt)) (planStart (g.map (greenSteps dt)) (p + 1) + (i - r))

/-- Position `x` in the cycle of plan `g`: phase `p` with elapsed time `t`. -/
def CyclePos (g : List ℚ) (x : ℚ) (p : ℕ) (t : ℚ) : Prop :=
  x = (g.take p).sum + t ∧ 0 ≤ t ∧ ∃ gp, g[p]? = some gp ∧ t < gp

end UX
