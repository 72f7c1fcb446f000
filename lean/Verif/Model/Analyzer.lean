import Verif.Model.Reach

/-!
# Trip statistics (analyzer.py:98–181, 1682–1698)

Averages and sums are exact: numpy's rounding and summation order are not modelled. Standard
deviations are not modelled. Free-flow travel times, shortest distances and delays are in
`Model/Delay.lean` (they do not enter the quantities below).
-/

namespace UX

/-- A Python `defaultdict`: its keys in insertion order and its values (the default for other keys). -/
structure DDict (κ α : Type) where
  keys : List κ
  val : κ → α

/-- `ddict(lambda: a)` -/
def DDict.empty {κ α : Type} (a : α) : DDict κ α := ⟨[], fun _ => a⟩

/-- `d[k] = f(d[k])` -/
def DDict.modify {κ α : Type} [DecidableEq κ] (d : DDict κ α) (k : κ) (f : α → α) : DDict κ α :=
  ⟨if k ∈ d.keys then d.keys else d.keys ++ [k], upd d.val k (f (d.val k))⟩

/-- The dictionaries filled by `od_analysis` (analyzer.py:130–136). -/
structure OdStats where
  trips : DDict (NodeId × NodeId) ℕ
  comp : DDict (NodeId × NodeId) ℕ
  tt : DDict (NodeId × NodeId) (List ℚ)
  dist : DDict (NodeId × NodeId) (List ℚ)

/-- `np.average` -/
def average (xs : List ℚ) : ℚ := xs.sum / xs.length

/-- One row of `od_to_pandas` (analyzer.py:1693–1695), modelled columns only. -/
structure OdRow where
  orig : NodeId
  dest : NodeId
  total : ℕ
  comp : ℕ
  ttAve : ℚ
  distAve : ℚ
  deriving DecidableEq, Repr

namespace World

/-- Loop body of `od_analysis` (analyzer.py:161–173). `VEHICLES` holds all vehicles in creation
order. -/
def odCollect (W : World) (S : OdStats) (v : VehId) : OdStats :=
  match W.V.dest v with
  | none => S
  | some d =>
    let k := (W.V.orig v, d)
    let S1 := { S with
      trips := S.trips.modify k (· + W.dn)
      dist := S.dist.modify k (· ++ [W.V.dist v]) }
    if W.V.travelTime v ≠ -1 then
      { S1 with
        comp := S1.comp.modify k (· + W.dn)
        tt := S1.tt.modify k (· ++ [W.V.travelTime v]) }
    else S1

/-- analyzer.py:130–136 and 161–173 -/
def odStats (W : World) : OdStats :=
  (List.range W.nVeh).foldl W.odCollect
    { trips := .empty 0, comp := .empty 0, tt := .empty [], dist := .empty [] }

/-- `od_analysis` without its flag, and the rows of `od_to_pandas` (analyzer.py:174–181, 1693–1695).
Averages are filled in only for pairs in `od_tt`, the others keep the default 0. -/
def odRows (W : World) : List OdRow :=
  let S := W.odStats
  S.trips.keys.map fun k =>
    { orig := k.1, dest := k.2, total := S.trips.val k, comp := S.comp.val k
      ttAve := if k ∈ S.tt.keys then average (S.tt.val k) else 0
      distAve := if k ∈ S.tt.keys then average (S.dist.val k) else 0 }

end World

/-- The modelled fields of `Analyzer` (analyzer.py:55–70). -/
structure Analyzer where
  flagOd : Bool
  rows : List OdRow
  tripCompleted : ℕ
  tripAll : ℕ
  totalDistance : ℚ
  totalTravelTime : ℚ
  averageTravelTime : ℚ
  deriving DecidableEq, Repr

namespace Analyzer

/-- `Analyzer.__init__` (analyzer.py:43–70), called by `finalize_scenario` (uxsim.py:2365). -/
def new : Analyzer :=
  { flagOd := false, rows := [], tripCompleted := 0, tripAll := 0, totalDistance := 0
    totalTravelTime := 0, averageTravelTime := 0 }

/-- `od_analysis` (analyzer.py:121–181): does nothing if it ran before. -/
def odAnalysis (A : Analyzer) (W : World) : Analyzer :=
  if A.flagOd then A else { A with flagOd := true, rows := W.odRows }

/-- `basic_analysis` (analyzer.py:98–118). -/
def basicAnalysis (A : Analyzer) (W : World) : Analyzer :=
  let A1 := A.odAnalysis W
  let comp := (A1.rows.map (·.comp)).sum
  let tt : ℚ := if comp ≠ 0 then (A1.rows.map fun r => (r.comp : ℚ) * r.ttAve).sum else -1
  { A1 with
    tripCompleted := comp
    tripAll := (A1.rows.map (·.total)).sum
    totalDistance := (A1.rows.map fun r => r.distAve * (r.total : ℚ)).sum
    totalTravelTime := tt
    averageTravelTime := if comp ≠ 0 then tt / comp else -1 }

end Analyzer

/-- Histories of a world together with its analyzer: API calls, and requests for statistics at any
time. Finalization creates a fresh analyzer (uxsim.py:2365). -/
inductive Calls : World → Analyzer → World → Analyzer → Prop
  | refl {W A} : Calls W A W A
  | api {W A W1 A1 W2} : Calls W A W1 A1 → ApiStep W1 W2 → W2.finalized = W1.finalized → Calls W A W2 A1
  | od {W A W1 A1} : Calls W A W1 A1 → Calls W A W1 (A1.odAnalysis W1)
  | basic {W A W1 A1} : Calls W A W1 A1 → Calls W A W1 (A1.basicAnalysis W1)

end UX
