import Verif.Model.Analyzer
import Verif.Model.Edie
import Verif.Model.Taxi
import Mathlib.Data.Finset.Basic

/-!
# Result tables of the analyzer and of the taxi handler

`link_analysis_coarse`, `link_to_pandas`, `link_cumulative_to_pandas`, `vehicles_to_pandas`,
`vehicle_trip_to_pandas`, `area_to_pandas`, `vehicle_groups_to_pandas`, `compute_mfd`, `mfd_to_pandas`
(analyzer.py) and `TaxiHandler.compute_stats` (TaxiHandler.py).

A data frame is the list of its rows. Means and ratios are exact: numpy's rounding and summation order are
not modelled. Standard deviations are not modelled. `nan` is `none`. Warnings are not modelled. The flag
that makes `vehicles_to_pandas` run once only is modelled in `VehTable`.
-/

namespace UX

/-- One row of `link_to_pandas` (analyzer.py:2030–2032). -/
structure LinkRow where
  link : String
  startN : String
  endN : String
  volume : ℕ
  remain : ℤ
  ttFree : ℚ
  ttAve : ℚ
  delay : ℚ
  length : ℚ
  deriving DecidableEq, Repr

/-- One row of `link_cumulative_to_pandas` (analyzer.py:2062–2065). -/
structure CumRow where
  link : String
  t : ℚ
  arr : ℕ
  dep : ℕ
  actual : ℚ
  instant : ℚ
  deriving DecidableEq, Repr

/-- One row of `vehicles_to_pandas` (analyzer.py:1608). -/
structure VehRow where
  name : String
  dn : ℕ
  orig : String
  dest : Option String
  t : ℚ
  link : String
  x : ℚ
  s : ℚ
  v : ℚ
  deriving DecidableEq, Repr

/-- One row of `vehicle_trip_to_pandas` (analyzer.py:1645). -/
structure TripRow where
  name : String
  orig : String
  dest : Option String
  departure : ℚ
  state : VState
  travelTime : ℚ
  speed : Option ℚ
  distance : ℚ
  deriving DecidableEq, Repr

/-- One row of `area_to_pandas` (analyzer.py:1889–1898), without the name of the area. -/
structure AreaRow where
  nLinks : ℕ
  volume : ℕ
  remain : ℤ
  totalTime : ℚ
  delay : Option ℚ
  speed : Option ℚ
  density : Option ℚ
  deriving DecidableEq, Repr

/-- One row of `vehicle_groups_to_pandas` (analyzer.py:1982–1994), modelled columns only, without the name
of the group. -/
structure GroupRow where
  total : ℕ
  completed : ℕ
  ttAve : Option ℚ
  distAve : Option ℚ
  speedAve : Option ℚ
  deriving DecidableEq, Repr

/-- `TaxiHandler.compute_stats` (TaxiHandler.py:148–167). -/
structure TaxiStats where
  total : ℕ
  completed : ℕ
  waiting : List ℚ
  travel : List ℚ
  invehicle : List ℚ
  taxis : ℕ
  deriving DecidableEq, Repr

/-- `xs[i]`, or `IndexError`. -/
def at! {α : Type} (xs : List α) (i : ℕ) : M α :=
  match xs[i]? with | some a => .ok a | none => .error .indexError

/-- `xs[-1]` of a list stored newest first, or `IndexError`. -/
def last! {α : Type} (xs : List α) : M α :=
  match xs with | a :: _ => .ok a | [] => .error .indexError

namespace World

/-- `link_analysis_coarse` and `link_to_pandas` for one link (analyzer.py:193–203, 2032). A free travel time
of zero (length zero) is taken to raise `ZeroDivisionError` at the delay ratio. -/
def linkRow (W : World) (l : LinkId) : M LinkRow := do
  let d ← last! (W.L.cumDep l)
  let a ← last! (W.L.cumArr l)
  if W.L.u l = 0 then throw .zeroDivision
  let free := W.L.length l / W.L.u l
  let pos := (W.L.ttActual l).filter (fun q => decide (0 < q))
  let ave := if d ≠ 0 then (if pos ≠ [] then average pos else -1) else -1
  if free = 0 then throw .zeroDivision
  pure { link := W.L.name l, startN := W.N.name (W.L.startN l), endN := W.N.name (W.L.endN l)
         volume := d, remain := (a : ℤ) - d, ttFree := free, ttAve := ave, delay := ave / free
         length := W.L.length l }

/-- `link_to_pandas` (analyzer.py:2020–2034). -/
def linkTable (W : World) : M (List LinkRow) := (List.range W.nLinks).mapM W.linkRow

/-- `link_cumulative_to_pandas` for one link and step (analyzer.py:2065). -/
def cumRow (W : World) (l : LinkId) (i : ℕ) : M CumRow := do
  let a ← at! (W.L.cumArr l).reverse i
  let d ← at! (W.L.cumDep l).reverse i
  let q ← at! (W.L.ttActual l) i
  let p ← at! (W.L.ttInstant l).reverse i
  pure { link := W.L.name l, t := W.fl (i * W.dt), arr := a, dep := d, actual := q, instant := p }

/-- `link_cumulative_to_pandas` (analyzer.py:2054–2067). -/
def cumTable (W : World) : M (List CumRow) :=
  ((List.range W.nLinks).flatMap fun l => (List.range W.tsize).map fun i => (l, i)).mapM
    fun p => W.cumRow p.1 p.2

/-- The link column of `vehicles_to_pandas` (analyzer.py:1596–1604). -/
def linkColumn (W : World) (r : LogRow) : String :=
  match r.link with
  | some l => W.L.name l
  | none => match r.state with
    | .wait => "waiting_at_origin_node"
    | .abort => "trip_aborted"
    | _ => "trip_end"

/-- The rows of one vehicle in `vehicles_to_pandas` (analyzer.py:1594–1608). -/
def vehRows (W : World) (v : VehId) : List VehRow :=
  ((W.V.log v).reverse.filter fun r => decide (r.state ≠ .home)).map fun r =>
    { name := W.V.name v, dn := W.dn, orig := W.N.name (W.V.orig v), dest := (W.V.dest v).map W.N.name
      t := r.t, link := W.linkColumn r, x := r.x, s := r.s, v := r.v }

/-- `vehicles_to_pandas` without its flag (analyzer.py:1591–1609). -/
def vehTable (W : World) : List VehRow := (List.range W.nVeh).flatMap W.vehRows

/-- `vehicle_trip_to_pandas` for one vehicle (analyzer.py:1640–1645). The mean of no speeds is `nan`. -/
def tripRow (W : World) (v : VehId) : M TripRow := do
  let r ← last! (W.V.log v)
  let vs := ((W.V.log v).map (·.v)).filter (fun q => decide (q ≠ -1))
  pure { name := W.V.name v, orig := W.N.name (W.V.orig v), dest := (W.V.dest v).map W.N.name
         departure := W.fl (W.V.depTime v * W.dt), state := r.state, travelTime := W.V.travelTime v
         speed := if vs = [] then none else some (average vs), distance := W.V.dist v }

/-- `vehicle_trip_to_pandas` (analyzer.py:1620–1648). -/
def tripTable (W : World) : M (List TripRow) := (List.range W.nVeh).mapM W.tripRow

/-- Rows of an area (analyzer.py:1847–1850). `area` holds node names. -/
def areaLinks (area : List String) (border : Bool) (rows : List LinkRow) : List LinkRow :=
  rows.filter fun r =>
    if border then area.contains r.startN || area.contains r.endN
    else area.contains r.startN && area.contains r.endN

/-- `area_to_pandas` for one area, given the link and vehicle tables (analyzer.py:1846–1886). `unique` and
`nunique` count distinct names. `total_free_time = 0` makes the delay `nan` or infinite; both are `none`.
`max(.., 0)` of a number. -/
def areaRow (W : World) (rows : List LinkRow) (vehs : List VehRow) (area : List String) (border : Bool) :
    AreaRow :=
  let rs := areaLinks area border rows
  let links := (rs.map (·.link)).dedup
  let volume := ((vehs.filter fun r => links.contains r.link).map (·.name)).dedup.length * W.dn
  let remain := (rs.map (·.remain)).sum
  if 0 < volume then
    let left := fun r : LinkRow => (r.volume : ℚ) - (r.remain : ℚ)
    let tt := (rs.map fun r => r.ttAve * left r).sum
    let ff := (rs.map fun r => r.ttFree * left r).sum
    let dist := (rs.map fun r => r.length * left r).sum
    let len := (rs.map (·.length)).sum
    { nLinks := links.length, volume := volume, remain := remain, totalTime := tt
      delay := if ff = 0 then none else some (max (tt / ff - 1) 0)
      speed := if 0 < tt then some (dist / tt) else none
      density := if 0 < len then some (volume / len) else none }
  else
    { nLinks := links.length, volume := volume, remain := remain, totalTime := 0
      delay := none, speed := none, density := none }

/-- `area_to_pandas` (analyzer.py:1811–1901); `get_node` raises for unknown nodes. -/
def areaTable (W : World) (areas : List (List Ref)) (border : Bool) : M (List AreaRow) := do
  let rows ← W.linkTable
  let sets ← areas.mapM fun a => a.mapM fun n => do
    let n ← W.getNode n
    pure (W.N.name n)
  pure (sets.map fun a => W.areaRow rows W.vehTable a border)

/-- `vehicle_groups_to_pandas` for one group (analyzer.py:1933–1980), modelled columns. The ratios to free
travel time and shortest distance are `groupRatios` in `Model/OdTable.lean`. -/
def groupRow (W : World) (g : List VehId) : M GroupRow := do
  let done := g.filter fun v => decide (W.V.state v = .ended)
  if done.any fun v => decide (W.V.travelTime v = 0) then throw .zeroDivision
  let ave := fun f : VehId → ℚ => if done = [] then none else some (average (done.map f))
  pure { total := g.length, completed := done.length, ttAve := ave W.V.travelTime
         distAve := ave W.V.dist, speedAve := ave fun v => W.V.dist v / W.V.travelTime v }

/-- `vehicle_groups_to_pandas` (analyzer.py:1903–1998). With the default `group_names`, line 1921 reads
`groups[0].name`: a group is a list and has no name. -/
def groupTable (W : World) (groups : List (List VehId)) (named : Bool) : M (List GroupRow) :=
  if !named && !groups.isEmpty then .error .attributeError
  else groups.mapM W.groupRow

/-- Default `edie_dx` of a link, fixed when it is created (uxsim.py:614–618); `u` is its free-flow speed at
that time. -/
def edieDx (W : World) (u : ℚ) (l : LinkId) : ℚ := max (W.L.length l / 10) (u * W.dt)

end World

/-- The dictionaries `K_AREA` and `Q_AREA` (uxsim.py:2339–2340): a set of links to an array with one entry
per time interval. -/
structure Mfd where
  k : DDict (Finset LinkId) (ℕ → ℚ)
  q : DDict (Finset LinkId) (ℕ → ℚ)

def Mfd.empty : Mfd := ⟨.empty fun _ => 0, .empty fun _ => 0⟩

namespace World

/-- Number of entries of the arrays in `K_AREA` (uxsim.py:2339–2340). -/
def mfdSize (tmax edt : ℚ) : ℕ := (pyInt (tmax / edt)).toNat

/-- `compute_mfd` (analyzer.py:1420–1436), the traffic states being computed for the first time. `edx l` is
`edie_dx` of link `l`, `edt` is `EULAR_DT`. -/
def computeMfd (W : World) (tmax edt : ℚ) (edx : LinkId → ℚ) (links : Finset LinkId) (S : Mfd) : M Mfd := do
  let ms ← (List.range W.nLinks).mapM fun l => do
    let m ← W.edieState tmax edt (edx l) l
    pure (l, m)
  let ms := ms.filter fun p => decide (p.1 ∈ links)
  let an := (ms.map fun p => W.L.length p.1 * edt).sum
  let row := fun (f : EdieMats → ℕ → ℕ → ℚ) (i : ℕ) =>
    (ms.map fun p => ((List.range p.2.nx).map fun j => f p.2 i j).sum).sum
  let S := { S with q := S.q.modify links id }
  (List.range (mfdSize tmax edt)).foldlM (fun S i => do
    if an = 0 then throw .zeroDivision
    pure { k := S.k.modify links fun a => upd a i (row EdieMats.tn i / an)
           q := S.q.modify links fun a => upd a i (row EdieMats.dn i / an) }) S

/-- `mfd_to_pandas` (analyzer.py:2000–2018): rows `(t, k, q)`. `lange(W.K_AREA)` runs over as many numbers
as the dictionary has keys. -/
def mfdTable (W : World) (tmax edt : ℚ) (edx : LinkId → ℚ) (links : Finset LinkId) (S : Mfd) :
    M (Mfd × List (ℚ × ℚ × ℚ)) := do
  let S ← W.computeMfd tmax edt edx links S
  let rows ← (List.range S.k.keys.length).mapM fun i : ℕ => do
    if i < mfdSize tmax edt then pure ((i : ℚ) * edt, S.k.val links i, S.q.val links i)
    else throw .indexError
  pure (S, rows)

/-- `TaxiHandler.compute_stats` (TaxiHandler.py:148–167). Subtracting `None`
raises `TypeError`, an `exception` here. -/
def taxiStats (W : World) : M TaxiStats := do
  let rs := List.range W.H.nReq
  let done := rs.filter fun r => (W.H.arrivalTime r).isSome
  let inveh ← done.mapM fun r => match W.H.arrivalTime r, W.H.getTaxiTime r with
    | some a, some g => pure (a - g)
    | _, _ => throw .exception
  let travel ← done.mapM fun r => match W.H.arrivalTime r with
    | some a => pure (a - W.H.departTime r)
    | none => throw .exception
  pure { total := W.H.nReq * W.dn, completed := done.length * W.dn
         waiting := rs.filterMap fun r => (W.H.getTaxiTime r).map (· - W.H.departTime r)
         travel := travel, invehicle := inveh
         taxis := ((List.range W.nVeh).filter fun v => decide (W.V.mode v = .taxi)).length * W.dn }

end World

/-- `sum(xs)/len(xs) if len(xs) > 0 else 0` (TaxiHandler.py:175–177), exact arithmetic. -/
def meanOr0 (xs : List ℚ) : ℚ := if 0 < xs.length then xs.sum / xs.length else 0

/-- The row of `TaxiHandler.basic_to_pandas` (TaxiHandler.py:166–179). -/
structure TaxiBasic where
  total : ℕ
  completed : ℕ
  waiting : ℚ
  invehicle : ℚ
  travel : ℚ
  deriving DecidableEq, Repr

/-- A row of `TaxiHandler.trips_to_pandas` (TaxiHandler.py:195–210); `None` is `none`. -/
structure TaxiTrip where
  orig : String
  dest : String
  depart : ℚ
  getTaxi : Option ℚ
  arrival : Option ℚ
  travel : Option ℚ
  waiting : Option ℚ
  taxi : Option String
  deriving DecidableEq, Repr

namespace World

/-- `TaxiHandler.basic_to_pandas` (TaxiHandler.py:166–179). -/
def taxiBasic (W : World) : M TaxiBasic := do
  let S ← W.taxiStats
  pure { total := S.total, completed := S.completed, waiting := meanOr0 S.waiting
         invehicle := meanOr0 S.invehicle, travel := meanOr0 S.travel }

/-- The two ratios printed by `TaxiHandler.print_stats` (TaxiHandler.py:181–193): completed requests per request
and per taxi. -/
def taxiRatios (W : World) : M (ℚ × ℚ) := do
  let S ← W.taxiStats
  let a : ℚ := if 0 < S.total then S.completed / S.total else 0
  if S.taxis = 0 then throw .zeroDivision
  pure (a, S.completed / S.taxis)

/-- `TaxiHandler.trips_to_pandas` (TaxiHandler.py:195–210). -/
def taxiTrips (W : World) : M (List TaxiTrip) := do
  let _ ← W.taxiStats
  pure ((List.range W.H.nReq).map fun r =>
    { orig := W.N.name (W.H.orig r), dest := W.N.name (W.H.dest r), depart := W.H.departTime r
      getTaxi := W.H.getTaxiTime r, arrival := W.H.arrivalTime r
      travel := (W.H.arrivalTime r).map (· - W.H.departTime r)
      waiting := (W.H.getTaxiTime r).map (· - W.H.departTime r)
      taxi := (W.H.taxi r).map W.V.name })

end World

/-- `df_vehicles` and its flag (analyzer.py:69, 1591–1612). -/
structure VehTable where
  flag : Bool
  rows : List VehRow

/-- `vehicles_to_pandas` with its flag. -/
def VehTable.get (A : VehTable) (W : World) : VehTable :=
  if A.flag then A else ⟨true, W.vehTable⟩

end UX
