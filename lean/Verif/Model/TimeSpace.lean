import Verif.Model.Externality

/-!
# Time-space network (Utilities.py:339–415)

Node names are unique, so nodes are identified by their ids. Positions (for drawing) and the printed
messages are not modelled. `nx.single_source_dijkstra` is uninterpreted: `sp g s` maps the reached nodes
to the cost and the path.
-/

namespace UX

/-- A node of the time-space network: a node and a time in seconds, or a node and `"end"` (`none`). -/
abbrev TNode := NodeId × Option ℤ

namespace World

/-- `range(0, tmax, dt)` for `dt > 0` (Utilities.py:364). -/
def tsnTimes (tmax dt : ℕ) : List ℤ := (List.range ((tmax + dt - 1) / dt)).map fun k => ((k * dt : ℕ) : ℤ)

/-- Set the weight of an edge of a `DiGraph`; an edge that is there already is overwritten. -/
def addArc (g : TNode → TNode → Option ℚ) (u v : TNode) (w : ℚ) : TNode → TNode → Option ℚ :=
  upd g u (upd (g u) v (some w))

/-- The arc of one link for one entry time (Utilities.py:371–378); `n` is the node whose outgoing link
it is, `ts` are the times of the network. -/
def tsnLink (W : World) (tm : ℚ) (dt : ℕ) (ts : List ℤ) (t : ℤ) (n : NodeId)
    (g : TNode → TNode → Option ℚ) (l : LinkId) : M (TNode → TNode → Option ℚ) :=
  if W.dt = 0 then .error .zeroDivision
  else do
    let q ← pyGet (W.L.ttActual l) (pyInt (W.fl (t / W.dt)))
    let ta : ℤ := pyInt (W.fl (W.fl (t + q) / dt)) * dt
    if (ta : ℚ) < tm ∧ ta ∈ ts then pure (addArc g (n, some t) (W.L.endN l, some ta) q) else pure g

/-- All arcs of links (Utilities.py:368–378). -/
def tsnLinks (W : World) (tm : ℚ) (dt : ℕ) (ts : List ℤ) : M (TNode → TNode → Option ℚ) :=
  ts.foldlM (fun g t => (List.range W.nNodes).foldlM (fun g n => (W.N.outlinks n).foldlM (W.tsnLink tm dt ts t n) g) g)
    (fun _ _ => none)

/-- The arcs to the end nodes (Utilities.py:382–390). -/
def tsnEnds (W : World) (ts : List ℤ) (g : TNode → TNode → Option ℚ) : TNode → TNode → Option ℚ :=
  ts.foldl (fun g t => (List.range W.nNodes).foldl (fun g n => addArc g (n, some t) (n, none) 0) g) g

/-- `dt` (Utilities.py:358–359). -/
def tsnStep (W : World) : Option ℕ → ℕ
  | some d => d
  | none => (pyInt W.dt).toNat

/-- `dt` and `tmax` (Utilities.py:358–360): a missing `TMAX` is a `TypeError`, `range` with step 0 a
`ValueError`. Negative steps and `TMAX < 0` (empty networks) are not modelled: `TMAX` is read as 0 then. -/
def tsnGrid (W : World) (dt : Option ℕ) : M (ℚ × ℕ × List ℤ) :=
  match W.tmax with
  | none => .error .exception
  | some tm =>
    if W.tsnStep dt = 0 then .error .valueError else .ok (tm, W.tsnStep dt, tsnTimes (pyInt tm).toNat (W.tsnStep dt))

/-- The network `W.TSN` (Utilities.py:358–390). -/
def tsnGraph (W : World) (dt : Option ℕ) : M (TNode → TNode → Option ℚ) := do
  let (tm, d, ts) ← W.tsnGrid dt
  let g ← W.tsnLinks tm d ts
  pure (W.tsnEnds ts g)

/-- The sources (Utilities.py:396–402): origin and departure time of the vehicles, if in the network. -/
def tsnSources (W : World) (d : ℕ) (ts : List ℤ) : List TNode :=
  (List.range W.nVeh).filterMap fun v =>
    let t : ℤ := pyInt (W.fl (W.V.depSec v / d)) * d
    if t ∈ ts then some (W.V.orig v, some t) else none

/-- `construct_time_space_network` (Utilities.py:339–415) with `from_origin_only=True`: `W.TSN_costs` and
`W.TSN_paths` in one, `none` where there is no entry. -/
def timeSpace (W : World) (dt : Option ℕ)
    (sp : (TNode → TNode → Option ℚ) → TNode → TNode → Option (ℚ × List TNode)) :
    M (TNode → TNode → Option (ℚ × List TNode)) := do
  let (_, d, ts) ← W.tsnGrid dt
  let g ← W.tsnGraph dt
  pure fun s t => if s ∈ W.tsnSources d ts then sp g s t else none

end World
end UX
