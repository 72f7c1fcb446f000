import Verif.Model.Analyzer
import Mathlib.Algebra.Order.Monoid.Unbundled.WithTop

/-!
# Free-flow travel times, shortest distances and delays (analyzer.py:98–181)

Numbers are exact. `⊤` stands for `np.inf` and `⊥` for `-np.inf`.
-/

namespace UX

/-- scipy's `floyd_warshall` on a dense matrix, without rounding: zeros are not edges, the diagonal is
set to 0. scipy updates one matrix in place; in round `k` neither row `k` nor column `k` changes
(the diagonal is 0 and costs are not negative), so the old values may be used. -/
def floyd (c : ℕ → ℕ → WithTop ℚ) : ℕ → ℕ → ℕ → WithTop ℚ
  | 0, i, j => if i = j then 0 else if c i j = 0 then ⊤ else c i j
  | k + 1, i, j => min (floyd c k i j) (floyd c k i k + floyd c k k j)

namespace World

/-- One pass of the loop that fills an adjacency matrix (analyzer.py:146–157) with values `f`. Every
link has `ADJ_MAT = 1` (uxsim.py:2350–2359), so the `else` branch is dead. -/
def freeAdjStep (W : World) (f : LinkId → ℚ) (adj : ℕ → ℕ → WithTop ℚ) (l : LinkId) : ℕ → ℕ → WithTop ℚ :=
  upd adj (W.L.startN l) (upd (adj (W.L.startN l)) (W.L.endN l) (if W.L.capIn l = 0 then ⊤ else (f l : ℚ)))

/-- `adj_mat_time`, `adj_mat_dist` (analyzer.py:144–157). -/
def freeAdj (W : World) (f : LinkId → ℚ) : ℕ → ℕ → WithTop ℚ :=
  (List.range W.nLinks).foldl (W.freeAdjStep f) (fun _ _ => 0)

/-- `dist_time` (analyzer.py:158) -/
def freeTime (W : World) (i j : NodeId) : WithTop ℚ :=
  floyd (W.freeAdj fun l => W.L.length l / W.L.u l) W.nNodes i j

/-- `dist_space` (analyzer.py:159) -/
def freeDist (W : World) (i j : NodeId) : WithTop ℚ := floyd (W.freeAdj W.L.length) W.nNodes i j

end World

/-- The columns `free_travel_time` and `shortest_distance` of `od_to_pandas` (analyzer.py:1693–1695). -/
structure OdFree where
  orig : NodeId
  dest : NodeId
  time : WithTop ℚ
  dist : WithTop ℚ
  deriving DecidableEq

/-- `completed_trips*(average_travel_time-free_travel_time)` of one row (analyzer.py:112). Rows with
an infinite time have completed trips. -/
def rowDelay (r : OdRow) (f : OdFree) : WithBot ℚ :=
  match f.time with
  | none => none
  | some q => some (r.comp * (r.ttAve - q))

/-- `total_delay` and `average_delay` -/
structure Delays where
  total : WithBot ℚ
  average : WithBot ℚ
  deriving DecidableEq

namespace World

/-- Rows of `od_to_pandas`, in the order of `odRows`: pairs that are not in `od_tt` keep the default 0
(analyzer.py:174–181). -/
def odFree (W : World) : List OdFree :=
  let S := W.odStats
  S.trips.keys.map fun k =>
    { orig := k.1, dest := k.2
      time := if k ∈ S.tt.keys then W.freeTime k.1 k.2 else 0
      dist := if k ∈ S.tt.keys then W.freeDist k.1 k.2 else 0 }

/-- `total_delay`, `average_delay` (analyzer.py:109–118), of an analyzer that did not run before.
`link.length/link.u` (151) fails if a free-flow speed is 0. -/
def delays (W : World) : M Delays :=
  if (List.range W.nLinks).any (fun l => decide (W.L.u l = 0)) then .error .zeroDivision
  else
    let comp : ℕ := (W.odRows.map (·.comp)).sum
    if comp ≠ 0 then
      let tot := (List.zipWith rowDelay W.odRows W.odFree).sum
      .ok { total := tot, average := tot.map (· / (comp : ℚ)) }
    else .ok { total := (-1 : ℚ), average := (-1 : ℚ) }

end World
end UX
