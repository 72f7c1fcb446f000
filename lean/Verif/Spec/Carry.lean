import Verif.Model.Sim

/-!
# Specification: one time step, node by node (C106, C107)
-/

namespace UX.PySpec
open World

/-- The world in a time step that starts with `W` when it is the turn of node `n` to let vehicles depart. -/
def departTurn (W : World) (n : ℕ) : M World := do
  let W1 ← (List.range W.nLinks).foldlM linkUpdate W
  (List.range n).foldlM (fun W n => do (← W.generate n).nodeUpdate n) W1

/-- The world in a time step that starts with `W` when it is the turn of node `n` to transfer vehicles. -/
def turn (W : World) (n : ℕ) : M World := do
  let W2 ← departTurn W W.nNodes
  (List.range n).foldlM transfer W2

/-- The vehicle that the one in place `i` on link `l` follows: the one as many places ahead as the link has
lanes. -/
def ahead (W : World) (l : LinkId) (i : ℕ) : Option VehId :=
  if W.L.lanes l ≤ i then (W.L.vehs l)[i - W.L.lanes l]? else none

/-- Space that a platoon takes in a jam on link `l`. -/
def jam (W : World) (l : LinkId) : ℚ := W.cfg.fl (W.L.deltaPerLane l * W.cfg.deltan)

/-- How far a vehicle at `x` would get on link `l` in one time step if the link went on beyond its end: by
the free-flow speed, and if there is a vehicle ahead at `y`, at most to the jam spacing behind it (but it
never moves backwards for that). -/
def beyond (W : World) (l : LinkId) (x : ℚ) : Option ℚ → ℚ
  | none => W.cfg.fl (x + W.cfg.fl (W.L.u l * W.cfg.deltat))
  | some y => min (W.cfg.fl (x + W.cfg.fl (W.L.u l * W.cfg.deltat))) (max x (W.cfg.fl (y - jam W l)))

/-- Where a vehicle that had `m` metres left to drive at the end of link `a` gets on link `b`: the time for
these `m` metres is driven at the speed of `b`, at most to the jam spacing behind the vehicle ahead, and not
beyond the end of `b`. -/
def entryPos (W : World) (a b : LinkId) (m : ℚ) (y : Option ℚ) : ℚ :=
  let s := W.cfg.fl (W.cfg.fl (m * W.L.u b) / W.L.u a)
  min (W.L.length b)
    (match y with
    | none => s
    | some y => min s (max 0 (W.cfg.fl (y - jam W b))))

end UX.PySpec
