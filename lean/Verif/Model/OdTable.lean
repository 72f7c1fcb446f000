import Verif.Model.Delay
import Verif.Model.Build

/-!
# Statistics between areas (analyzer.py:1700–1809) and ratios of vehicle groups (1903–1998)

The table is computed from the rows of `od_to_pandas` (`odRows`, `odFree`) of an analyzer that did not
run before. The code compares node names; names are unique, so nodes are compared here. Standard
deviations are not in the result and not modelled.
-/

namespace UX

/-- The numbers of one row (analyzer.py:1804–1805). `none` stands for `nan`, `⊤` for `inf`. -/
structure AreaPair where
  total : ℕ
  comp : ℕ
  time : Option ℚ
  free : Option (WithTop ℚ)
  dist : Option ℚ
  short : WithTop ℚ
  deriving DecidableEq

/-- `n*x` for an entry `x` that may be infinite; then `n` is positive. -/
def scaleTop (n : ℕ) (x : WithTop ℚ) : WithTop ℚ := x.map fun q => (n : ℚ) * q

namespace World

/-- The row for origins `O` and destinations `D` (analyzer.py:1740–1786); `none` where the loop
continues without a row. With `completed_trips` 0, `average_travel_time` is `0/0` (1767). -/
def areaPair (W : World) (O D : List NodeId) : Option AreaPair :=
  let rs := (List.zip W.odRows W.odFree).filter fun p => decide (p.1.orig ∈ O) && decide (p.1.dest ∈ D)
  let total : ℕ := (rs.map fun p => p.1.total).sum
  let comp : ℕ := (rs.map fun p => p.1.comp).sum
  if total = 0 then none
  else some
    { total := total, comp := comp
      time := if comp = 0 then none else some ((rs.map fun p => (p.1.comp : ℚ) * p.1.ttAve).sum / comp)
      free := if comp = 0 then none
        else some (((rs.map fun p => scaleTop p.1.comp p.2.time).sum).map fun q => q / (comp : ℚ))
      dist := if comp = 0 then none else some ((rs.map fun p => (p.1.total : ℚ) * p.1.distAve).sum / total)
      short := ((rs.map fun p => scaleTop p.1.total p.2.dist).sum).map fun q => q / (total : ℚ) }

/-- Default of `area_names` (analyzer.py:1733); `areas[i][0]` fails for an empty area. -/
def areaName (W : World) (a : List NodeId × ℕ) : M String :=
  match a.1 with
  | [] => .error .indexError
  | n :: _ => .ok s!"area {a.2} including {W.N.name n}"

/-- `area_names[i]` -/
def nameAt (names : List String) (i : ℕ) : M String :=
  match names[i]? with | some s => .ok s | none => .error .indexError

/-- The two loops over the areas (analyzer.py:1735–1802). -/
def areaRows (W : World) (as : List (List NodeId)) (names : List String) : M (List (String × String × AreaPair)) := do
  let rows ← (as.zipIdx.product as.zipIdx).mapM fun p => do
    let o ← nameAt names p.1.2
    let d ← nameAt names p.2.2
    pure ((W.areaPair p.1.1 p.2.1).map fun r => (o, d, r))
  pure (rows.filterMap id)

/-- `areas2areas_to_pandas` (analyzer.py:1700–1809). `od_analysis` fails if a free-flow speed is 0. -/
def areas2areas (W : World) (areas : List (List Ref)) (names : Option (List String)) :
    M (List (String × String × AreaPair)) :=
  if (List.range W.nLinks).any (fun l => decide (W.L.u l = 0)) then .error .zeroDivision
  else do
    let as ← areas.mapM fun a => a.mapM W.getNode
    match names with
    | some ns => W.areaRows as ns
    | none => do
      let ns ← as.zipIdx.mapM W.areaName
      W.areaRows as ns

/-- Division of numpy numbers: `t/inf` is 0, `t/0` is `inf` for `t > 0` and `nan` for 0. -/
def ratio (t : ℚ) : WithTop ℚ → Option (WithTop ℚ)
  | none => some 0
  | some x => if x = 0 then (if t = 0 then none else some ⊤) else some ((t / x : ℚ) : WithTop ℚ)

/-- `np.average` of such numbers. -/
def averageTop (xs : List (Option (WithTop ℚ))) : Option (WithTop ℚ) :=
  (xs.mapM id).map fun ys => (ys.sum).map fun q => q / (ys.length : ℚ)

/-- `df_od[…][(orig == …) & (dest == …)].values[0]` for the vehicle (analyzer.py:1951–1952). -/
def freeRow (W : World) (v : VehId) : M OdFree :=
  match W.odFree.find? fun r => decide (r.orig = W.V.orig v) && decide (some r.dest = W.V.dest v) with
  | some r => .ok r
  | none => .error .indexError

/-- Mean delay and detour ratios of one group (analyzer.py:1943–1980). -/
def groupRatios (W : World) (g : List VehId) : M (Option (WithTop ℚ) × Option (WithTop ℚ)) := do
  let done := g.filter fun v => decide (W.V.state v = .ended)
  let rows ← done.mapM fun v => do
    let r ← W.freeRow v
    pure (ratio (W.V.travelTime v) r.time, ratio (W.V.dist v) r.dist)
  if done = [] then pure (none, none)
  else pure (averageTop (rows.map (·.1)), averageTop (rows.map (·.2)))

end World
end UX
