import Verif.Spec.Trace

/-!
# Travel times of links (C53, C54)
-/

namespace UX

/-- The stays on link `l` that have ended, newest first, read off the events: the step of entry and the
step of exit. A vehicle that passes on in step `T` leaves at the beginning of that step, one that finishes
its trip at its end. -/
def stays (l : LinkId) : List Event → List (ℕ × ℕ)
  | [] => []
  | .pass T v _ a _ _ :: tr =>
    if a = l then (lastTake v tr).toList.map (fun s => (s.1, T)) ++ stays l tr else stays l tr
  | .finish T v a _ :: tr =>
    if a = l then (lastTake v tr).toList.map (fun s => (s.1, T + 1)) ++ stays l tr else stays l tr
  | _ :: tr => stays l tr

/-- Travel time of the newest stay that began in step `i` or before; `ff` if there is none. -/
def timeAt (ff dt : ℚ) (ss : List (ℕ × ℕ)) (i : ℕ) : ℚ :=
  match ss.find? (fun s => decide (s.1 ≤ i)) with
  | some s => ((s.2 : ℚ) - s.1) * dt
  | none => ff

/-- Mean speed of the vehicles on link `l` now, the free-flow speed if there are none. -/
def meanSpeed (W : World) (l : LinkId) : ℚ :=
  if W.L.vehs l = [] then W.L.u l else ((W.L.vehs l).map W.V.v).sum / (W.L.vehs l).length

/-- Travel time of link `l` at the present mean speed, and at one percent of the free-flow speed if all
its vehicles stand. -/
def instantTime (W : World) (l : LinkId) : ℚ :=
  if 0 < meanSpeed W l then W.L.length l / meanSpeed W l else W.L.length l / (W.L.u l / 100)

end UX
