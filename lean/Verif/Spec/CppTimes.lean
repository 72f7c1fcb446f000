import Verif.Model.CppTimes

/-!
# Specification: travel times written at once

What Python does (`traveltime_actual[int(t_enter/DELTAT):] = tt`, uxsim.py) and what the comment of
`ensure_traveltime_real` promises.
-/

namespace UX.Cpp.Spec

/-- Overwrite everything from position `s` on. -/
def overwrite (xs : List ℚ) (s : ℕ) (tt : ℚ) : List ℚ :=
  xs.mapIdx (fun i x => if s ≤ i then tt else x)

/-- The arrays that reads return when each record is written at once. -/
def eagerReads (xs : List ℚ) : List TOp → List (List ℚ)
  | [] => []
  | .put s tt :: os => eagerReads (overwrite xs s tt) os
  | .read :: os => xs :: eagerReads xs os

/-- The value at position `i` after the events: that of the last event starting at or before `i`. -/
def lastAt (x : ℚ) (i : ℕ) (evs : List (ℕ × ℚ)) : ℚ :=
  match (evs.filter (fun e => decide (e.1 ≤ i))).getLast? with
  | some e => e.2
  | none => x

end UX.Cpp.Spec
