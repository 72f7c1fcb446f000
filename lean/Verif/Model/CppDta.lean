import Verif.Model.CppTimes
import Verif.Model.CppLog
import Verif.Model.CppBuild

/-!
# Traffic assignment with the C++ engine (`uxsim/trafficpp/dta_solver.{h,cpp}`)

What the solvers `CppSolverDUE` and `CppSolverDSO_D2D` do between two simulations: the costs of routes,
the route swap and the enforcement of the new routes. `ensure_traveltime_real` (a cache, see C76) is
applied by every reader below and its effect on the stored array is not kept. The random numbers of a
swap, `std::shuffle` included, are arguments. For the bindings' conversions between Python and C++ containers
(bindings.cpp:468–490, 644–658) and between ids and names see `Model/CppCsr.lean`.
-/

namespace UX.Cpp
namespace CWorld

/-! ## Link data at a time -/

/-- `(int)(t / delta_t)` moved into the index range of an array of `n` entries (dta_solver.h:48–50, 61–63). -/
def timeIdx (W : CWorld) (t : ℚ) (n : ℕ) : ℕ :=
  let i := pyInt (W.g.fl (t / W.g.deltaT))
  let i := if i < 0 then 0 else i
  (if (n : ℤ) ≤ i then (n : ℤ) - 1 else i).toNat

/-- `dta_get_toll` (dta_solver.h:46–54). -/
def dtaToll (W : CWorld) (l : ℕ) (t : ℚ) : ℚ :=
  if (W.link l).toll ≠ [] then (W.link l).toll.getD (W.timeIdx t (W.link l).toll.length) 0
  else (W.link l).penalty

/-- `dta_get_actual_travel_time` (dta_solver.h:57–65). -/
def dtaTime (W : CWorld) (l : ℕ) (t : ℚ) : ℚ :=
  let xs := (W.link l).ensureTT.ttReal
  if xs.length = 0 then W.g.fl ((W.link l).len / (W.link l).vmax) else xs.getD (W.timeIdx t xs.length) 0

/-! ## Externality -/

/-- `i + (int)(tt / dt)` (traffi.cpp:660, 676) for a non-negative travel time. -/
def exitIdx (W : CWorld) (i : ℕ) (tt : ℚ) : ℕ := i + (pyInt (W.g.fl (tt / W.g.deltaT))).toNat

/-- The scan for the end of the congestion (traffi.cpp:656–667): rounds left, `i`, `ts_end`. -/
def extEnd (W : CWorld) (l : ℕ) (xs : List ℚ) : ℕ → ℕ → ℕ → ℕ
  | 0, _, e => e
  | k + 1, i, e =>
    let tt := xs.getD i 0
    let f := W.exitIdx i tt
    if xs.length ≤ f then e
    else if W.g.fl (W.g.fl ((W.link l).len / (W.link l).vmax) * W.g.fl (101 / 100)) < tt ∧
        0 < W.g.fl ((W.link l).arr f - (W.link l).dep f) then extEnd W l xs k (i + 1) i
    else e

/-- The scan for the departure before (traffi.cpp:679–685): `i` from `ts_out` down to 1. -/
def extLead (dep : ℕ → ℚ) (out : ℕ) : ℕ → ℕ
  | 0 => out
  | i + 1 => if dep (i + 1) < dep out then i + 1 else extLead dep out i

/-- `Link::estimate_congestion_externality` (traffi.cpp:650–689) for a non-negative time step (a negative
one, before the start of the simulation, would read outside the arrays). The three arrays have the same
length. -/
def extLink (W : CWorld) (l ts : ℕ) : ℚ :=
  let xs := (W.link l).ensureTT.ttReal
  let n := xs.length
  let e := W.extEnd l xs (n - ts) ts ts
  let count := if ts < n ∧ e < n then W.g.fl ((W.link l).arr e - (W.link l).arr ts) else 0
  let out := if ts < n then W.exitIdx ts (xs.getD ts 0) + 1 else 0
  let out := if n ≤ out then n - 1 else out
  W.g.fl (W.g.fl ((out - extLead (W.link l).dep out out : ℕ) * W.g.deltaT) * count)

/-- `World::estimate_congestion_externality_route` (traffi.cpp:691–707): route left, `t`, `exts`. A time step
after the last one takes the free-flow time here, unlike in `dta_get_actual_travel_time`. -/
def extRoute (W : CWorld) : List ℕ → ℚ → ℚ → ℚ
  | [], _, x => x
  | l :: ls, t, x =>
    let ts := (pyInt (W.g.fl (t / W.g.deltaT))).toNat
    let xs := (W.link l).ensureTT.ttReal
    let q := if ts < xs.length then xs.getD ts 0 else W.g.fl ((W.link l).len / (W.link l).vmax)
    extRoute W ls (W.g.fl (t + q)) (W.g.fl (x + W.extLink l ts))

/-! ## Costs of routes -/

/-- `dta_compute_route_travel_time` (dta_solver.cpp:60–72): route left, `t`, `tt_total`; also the
`details`. -/
def routeTime (W : CWorld) : List ℕ → ℚ → ℚ → ℚ × List ℚ
  | [], _, s => (s, [])
  | l :: ls, t, s =>
    let q := W.dtaTime l t
    let r := routeTime W ls (W.g.fl (t + q)) (W.g.fl (s + q))
    (r.1, q :: r.2)

/-- The loop of `dta_compute_route_cost_due` and `dta_compute_route_cost_dso` (dta_solver.cpp:74–103), `c`
being the charge of a link at the time of entering it: route left, `t`, `tt_total`, the total of charges. -/
def costLoop (W : CWorld) (c : ℕ → ℚ → ℚ) : List ℕ → ℚ → ℚ → ℚ → ℚ
  | [], _, s, x => W.g.fl (s + x)
  | l :: ls, t, s, x =>
    let q := W.dtaTime l t
    costLoop W c ls (W.g.fl (t + q)) (W.g.fl (s + q)) (W.g.fl (x + c l t))

/-- `dta_compute_route_cost_due` (dta_solver.cpp:74–87). -/
def costDue (W : CWorld) (ls : List ℕ) (t : ℚ) : ℚ := W.costLoop W.dtaToll ls t 0 0

/-- `dta_compute_route_cost_dso` (dta_solver.cpp:89–103). -/
def costDso (W : CWorld) (ls : List ℕ) (t : ℚ) : ℚ :=
  W.costLoop (fun l t => W.extLink l (pyInt (W.g.fl (t / W.g.deltaT))).toNat) ls t 0 0

/-- The cost of the travelled route in `dta_route_swap_due` (dta_solver.cpp:200–212): links and entry times
left, `t`, `cost_current`. -/
def costOwn (W : CWorld) : List ℕ → List ℚ → ℚ → ℚ → ℚ
  | [], _, _, s => s
  | l :: ls, ts, t, s =>
    let q := W.dtaTime l t
    costOwn W ls ts.tail (W.g.fl (t + q)) (W.g.fl (W.g.fl (s + W.dtaToll l (ts.headD t)) + q))

/-! ## Route swap -/

/-- Local variables of the loop over the alternatives (dta_solver.cpp:214–217). -/
structure SwapVar where
  changed : Bool
  idx : Option ℕ
  cur : ℚ
  gap : ℚ
  pot : ℚ

/-- Body of the loop over the alternatives (dta_solver.cpp:219–232, 346–359): `cost` is `cost_alt`. -/
def swapBody (W : CWorld) (flag : Bool) (s : SwapVar) (ri : ℕ) (cost : ℚ) : SwapVar :=
  if cost < s.cur then
    if s.changed = false ∨ cost < s.cur then
      { changed := if flag then true else s.changed
        idx := if flag then some ri else s.idx
        cur := if flag then cost else s.cur
        gap := W.g.fl (s.cur - cost)
        pot := W.g.deltaN }
    else s
  else s

/-- The loop over the alternatives with their costs, `ri` being the index of the next one. -/
def swapAlts (W : CWorld) (flag : Bool) : SwapVar → ℕ → List ℚ → SwapVar
  | s, _, [] => s
  | s, ri, c :: cs => swapAlts W flag (W.swapBody flag s ri c) (ri + 1) cs

/-- What a swap determines for one vehicle: its entries of `routes_specified`, `route_actual` and
`cost_actual`, and what it adds to the three statistics (dta_solver.h:109–120). -/
structure SwapRow where
  spec : List ℕ
  actual : List ℕ
  cost : ℚ
  nSwap : ℚ
  pot : ℚ
  gap : ℚ
  deriving DecidableEq

/-- `cost_actual` (dta_solver.cpp:161–165, 301–305). -/
def actualCost (W : CWorld) (v : ℕ) : ℚ :=
  match (W.traveledRoute v).2.1 with
  | [] => 0
  | t :: _ => W.g.fl ((W.traveledRoute v).2.2 - t)

/-- `departure_t` (dta_solver.cpp:199, 338). -/
def startTime (W : CWorld) (v : ℕ) : ℚ := (W.traveledRoute v).2.1.headD (W.veh v).depTime

/-- A vehicle that gets a route without comparison of costs (dta_solver.cpp:168–193, 308–333): the trip did
not end (an empty route: none is enforced), there is no route set, or the route is not in an external set.
`none`: the costs decide. -/
def swapFixed (W : CWorld) (sets : ℕ → ℕ → Option (List (List ℕ))) (ext : Bool) (v : ℕ) : Option (List ℕ) :=
  if (W.veh v).state ≠ .ended then some []
  else match sets (W.veh v).orig (W.veh v).dest with
    | none => some (W.traveledRoute v).1
    | some rs =>
      if ext ∧ (W.traveledRoute v).1 ∉ rs then
        match rs with
        | [] => none
        | r :: _ => some r
      else none

/-- The rest of the loop body (dta_solver.cpp:214–242, 341–369): `own` is the cost of the travelled route,
`alt` the cost of an alternative. -/
def swapByCost (W : CWorld) (rs : List (List ℕ)) (flag : Bool) (own : ℚ) (alt : List ℕ → ℚ) (v : ℕ) : SwapRow :=
  let s := W.swapAlts flag { changed := false, idx := none, cur := own, gap := 0, pot := 0 } 0 (rs.map alt)
  let ch := match s.changed, s.idx with
    | true, some i => some (rs.getD i [])
    | _, _ => none
  { spec := ch.getD (W.traveledRoute v).1
    actual := (W.traveledRoute v).1
    cost := W.actualCost v
    nSwap := if ch.isSome then W.g.deltaN else 0
    pot := s.pot
    gap := s.gap }

/-- One vehicle of `dta_route_swap_due` / `dta_route_swap_dso`; `own` and `alt` depend on the start time. -/
def swapVeh (W : CWorld) (sets : ℕ → ℕ → Option (List (List ℕ))) (ext flag : Bool) (own : ℚ)
    (alt : List ℕ → ℚ) (v : ℕ) : SwapRow :=
  match W.swapFixed sets ext v with
  | some r => { spec := r, actual := (W.traveledRoute v).1, cost := W.actualCost v, nSwap := 0, pot := 0, gap := 0 }
  | none => W.swapByCost ((sets (W.veh v).orig (W.veh v).dest).getD []) flag own alt v

/-- One vehicle of `dta_route_swap_due` (dta_solver.cpp:150–243) with its candidate flag. -/
def swapVehDue (W : CWorld) (sets : ℕ → ℕ → Option (List (List ℕ))) (ext flag : Bool) (v : ℕ) : SwapRow :=
  W.swapVeh sets ext flag
    (W.costOwn (W.traveledRoute v).1 (W.traveledRoute v).2.1 (W.startTime v) 0)
    (fun r => W.costDue r (W.startTime v)) v

/-- One vehicle of `dta_route_swap_dso` (dta_solver.cpp:291–370). -/
def swapVehDso (W : CWorld) (sets : ℕ → ℕ → Option (List (List ℕ))) (ext flag : Bool) (v : ℕ) : SwapRow :=
  W.swapVeh sets ext flag (W.costDso (W.traveledRoute v).1 (W.startTime v))
    (fun r => W.costDso r (W.startTime v)) v

/-- The loop of `dta_route_swap_due` over the vehicles: a draw `udist(local_rng)` is made for the vehicles
whose costs decide only (dta_solver.cpp:196). -/
def dueRows (W : CWorld) (sets : ℕ → ℕ → Option (List (List ℕ))) (p : ℚ) (ext : Bool) :
    List ℕ → (ℕ → ℚ) → List SwapRow
  | [], _ => []
  | v :: vs, u =>
    if W.swapFixed sets ext v = none then
      W.swapVehDue sets ext (decide (u 0 < p)) v :: dueRows W sets p ext vs (fun k => u (k + 1))
    else W.swapVehDue sets ext false v :: dueRows W sets p ext vs u

/-- `dta_route_swap_due` (dta_solver.cpp:130–246). -/
def swapDue (W : CWorld) (sets : ℕ → ℕ → Option (List (List ℕ))) (p : ℚ) (ext : Bool) (u : ℕ → ℚ) :
    List SwapRow :=
  W.dueRows sets p ext (List.range W.g.nVehs) u

/-- `is_swap_candidate` (dta_solver.cpp:274–289): `perm` is the result of `std::shuffle`, `u` the draws. -/
def candidate (p : ℚ) (num : ℤ) (perm : List ℕ) (u : ℕ → ℚ) (v : ℕ) : Bool :=
  if 0 ≤ num then decide (v ∈ perm.take (min num.toNat perm.length)) else decide (u v < p)

/-- `dta_route_swap_dso` (dta_solver.cpp:252–373). -/
def swapDso (W : CWorld) (sets : ℕ → ℕ → Option (List (List ℕ))) (p : ℚ) (num : ℤ) (ext : Bool)
    (perm : List ℕ) (u : ℕ → ℚ) : List SwapRow :=
  (List.range W.g.nVehs).map (fun v => W.swapVehDso sets ext (candidate p num perm u v) v)

/-- A statistic of the result: the sum over the vehicles in order (dta_solver.cpp:234–239). -/
def swapTotal (W : CWorld) (f : SwapRow → ℚ) (rows : List SwapRow) : ℚ :=
  rows.foldl (fun s r => W.g.fl (s + f r)) 0

/-! ## Enforcing the routes -/

/-- `dta_batch_enforce_routes` (dta_solver.cpp:109–124) from vehicle `i` on. -/
def enforceFrom (W : CWorld) : ℕ → List (List ℕ) → CWorld
  | _, [] => W
  | i, r :: rs =>
    if i < W.g.nVehs then
      enforceFrom (if r = [] then W else W.edit (.enforce i (r.filter (fun l => decide (l < W.g.nLinks)))))
        (i + 1) rs
    else W

/-- `dta_batch_enforce_routes` (dta_solver.cpp:109–124). -/
def batchEnforce (W : CWorld) (routes : List (List ℕ)) : CWorld := W.enforceFrom 0 routes

end CWorld
end UX.Cpp
