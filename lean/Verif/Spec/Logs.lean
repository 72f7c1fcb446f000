import Verif.Model.State

/-!
# Vocabulary about vehicle logs
-/

namespace UX
namespace World

/-- Times in the log of `v`, oldest first. -/
def logTimes (W : World) (v : VehId) : List ℚ := (W.V.log v).reverse.map (·.t)

/-- The times `i * Δt` of the steps `a ≤ i < b`. -/
def stepTimes (W : World) (a b : ℕ) : List ℚ :=
  (List.range' a (b - a)).map (fun i : ℕ => W.cfg.fl ((i : ℚ) * W.cfg.deltat))

/-- Speeds of all log rows of vehicles that were running or waiting, waiting counting as zero. -/
def loggedSpeeds (W : World) : List ℚ :=
  (List.range W.nVeh).flatMap fun v => (W.V.log v).filterMap fun r =>
    match r.state with
    | .run => some r.v
    | .wait => some 0
    | _ => none

/-- The point of the segment from `(x0, y0)` to `(x1, y1)` that divides it in the ratio `q : 1 - q`. -/
def pointAt (x0 y0 x1 y1 q : ℚ) : ℚ × ℚ := ((1 - q) * x0 + q * x1, (1 - q) * y0 + q * y1)

end World
end UX
