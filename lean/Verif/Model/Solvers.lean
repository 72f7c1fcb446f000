import Verif.Model.Random
import Verif.Model.Route
import Verif.Model.Analyzer
import Mathlib.Data.List.Sort

/-!
# Traffic assignment solvers

`SolverDUE`, `SolverDSO_D2D` and `SolverDSO_GA` (DTAsolvers/DTAsolvers.py). A solver creates worlds
with `func_World`, runs them to the end and decides the routes of the next world. Modelled are these
decisions: the swap loop over the vehicles of a finished world, the choice of the world to keep, and
the genetic operators. `func_World` and the simulation runs are inputs of the decisions; printing,
logging and timing are left out. Arithmetic on costs is exact.
-/

namespace UX

/-! ## Route swapping -/

/-- What the swap loop uses of one vehicle of a finished day (DTAsolvers.py:198–226, 565–594). `ρ` is
the type of routes. -/
structure DayVeh (ρ : Type) where
  /-- `veh.state == "end"` -/
  ended : Bool
  /-- `r`, the travelled route -/
  route : ρ
  /-- `cost_current` before the loop over alternatives -/
  cost : ℚ
  /-- `route_set[o,d]` with `cost_alt` of each route -/
  alts : List (ρ × ℚ)

/-- Local variables of the loop over the alternatives (DTAsolvers.py:216–236, 578–603). -/
structure SwapAcc (ρ : Type) where
  changed : Option ρ
  gap : ℚ
  cost : ℚ
  potential : Bool

/-- Body of the loop over the alternatives (DTAsolvers.py:226–234, 591–601). The inner condition
`flag_route_changed == False or cost_alt < cost_current` repeats the outer one. -/
def swapStep {ρ : Type} (flagSwap : Bool) (a : SwapAcc ρ) (p : ρ × ℚ) : SwapAcc ρ :=
  if p.2 < a.cost then
    { changed := if flagSwap then some p.1 else a.changed
      gap := a.cost - p.2
      cost := if flagSwap then p.2 else a.cost
      potential := true }
  else a

/-- The loop over the alternatives, with its initial values (DTAsolvers.py:216–220, 578–586). -/
def swapLoop {ρ : Type} (flagSwap : Bool) (v : DayVeh ρ) : SwapAcc ρ :=
  v.alts.foldl (swapStep flagSwap) { changed := none, gap := 0, cost := v.cost, potential := false }

/-- Result of one day: `routes_specified` as one entry per vehicle, and the statistics. -/
structure DayResult (ρ : Type) where
  specified : List (Option ρ)
  nSwap : ℚ
  nPotential : ℚ
  totalGap : ℚ

/-- Body of the loop over the vehicles (DTAsolvers.py:198–241, 565–608). `given` says that `route_sets`
was passed by the user; `flagSwap` is the random decision for this vehicle. `route_set[o,d][0]` of an
empty route set raises `IndexError`. -/
def swapVeh {ρ : Type} [DecidableEq ρ] (given : Bool) (dn : ℚ) (flagSwap : Bool) (v : DayVeh ρ)
    (R : DayResult ρ) : M (DayResult ρ) :=
  if v.ended = false then .ok { R with specified := R.specified ++ [none] }
  else if given = true ∧ v.route ∉ v.alts.map Prod.fst then
    match v.alts with
    | [] => .error .indexError
    | p :: _ => .ok { R with specified := R.specified ++ [some p.1] }
  else
    let a := swapLoop flagSwap v
    .ok { specified := R.specified ++ [some (a.changed.getD v.route)]
          nSwap := if a.changed.isSome then R.nSwap + dn else R.nSwap
          nPotential := if a.potential then R.nPotential + dn else R.nPotential
          totalGap := R.totalGap + a.gap }

/-- The loop over the vehicles of a day (DTAsolvers.py:191–241, 549–608); the random decisions are the
first components. -/
def swapDay {ρ : Type} [DecidableEq ρ] (given : Bool) (dn : ℚ) (vs : List (Bool × DayVeh ρ)) :
    M (DayResult ρ) :=
  vs.foldlM (fun R p => swapVeh given dn p.1 p.2 R)
    { specified := [], nSwap := 0, nPotential := 0, totalGap := 0 }

/-- Sum of the tolls along a route entered at the given times (DTAsolvers.py:219).
`l.get_toll` is an arbitrary function of link and time. -/
def tollSum (toll : LinkId → ℚ → ℚ) (ls : List LinkId) (ts : List ℚ) : ℚ :=
  ((ls.zip ts).map fun p => toll p.1 p.2).sum

/-- Entry times `ts[0]+sum(alt_route_tts[:i])` of the links of an alternative (DTAsolvers.py:224). -/
def entryTimes (t : ℚ) (tts : List ℚ) : List ℚ :=
  (List.range tts.length).map fun i => t + (tts.take i).sum

namespace World

/-- The vehicle loop variables of `SolverDUE` computed from the simulated world
(DTAsolvers.py:199–224): `traveled_route`, its travel time and tolls, and the costs of the
alternatives `routes`. -/
def dueVeh (W : World) (toll : LinkId → ℚ → ℚ) (routes : List (List LinkId)) (v : VehId) :
    M (DayVeh (List LinkId)) := do
  let p ← W.traveledRoute v true false
  match p.2 with
  | [] => throw .indexError
  | t0 :: _ =>
    if W.V.state v ≠ .ended then
      pure { ended := false, route := p.1, cost := 0, alts := [] }
    else do
      let c ← W.routeTravelTime p.1 0 t0
      let alts ← routes.mapM fun r => do
        let q ← W.routeTravelTime r 0 t0
        pure (r, q.1 + tollSum toll r (entryTimes t0 q.2))
      pure { ended := true, route := p.1, cost := c.1 + tollSum toll p.1 p.2, alts := alts }

end World

/-! ## Keeping the best day -/

/-- `SolverDSO_D2D`: update of `W_intermid_solution` after the simulation of a day
(DTAsolvers.py:533–544). The world is represented together with its analyzer after
`print_simple_stats`, which runs `basic_analysis`. -/
def d2dKeep (best : Option (World × Analyzer)) (W : World × Analyzer) : Option (World × Analyzer) :=
  if (W.2.tripAll : ℤ) - W.2.tripCompleted = 0 then
    match best with
    | none => some W
    | some B => if W.2.averageTravelTime < B.2.averageTravelTime then some W else some B
  else best

/-- The value returned by `SolverDSO_D2D.solve` after the given days (DTAsolvers.py:508–544, 629–632):
`W_sol = W_intermid_solution`. `prev` is the value left by an earlier call on the same solver object,
`none` for a new solver (DTAsolvers.py:411). -/
def d2dSolve (prev : Option (World × Analyzer)) (days : List (World × Analyzer)) :
    Option (World × Analyzer) :=
  days.foldl d2dKeep prev

/-! ## Genetic algorithm -/

/-- A solution: for each vehicle the number of its route. -/
abbrev Genome := List ℕ

/-- Parameters of `SolverDSO_GA.solve` (DTAsolvers.py:766–830, 914–925). `fitness` is the value of the
world simulated with the routes of the genome, `-total_travel_time -
(trip_all-trip_completed)*TMAX`; it is assumed to depend on the genome only. -/
structure GaCfg where
  fitness : Genome → ℚ
  maxs : List ℕ
  popSize : ℕ
  eliteSize : ℕ
  occurRate : ℚ
  geneRate : ℚ
  nPoints : ℕ

/-- The objective of `SolverDSO_GA` as a function of the statistics of a world
(DTAsolvers.py:981). -/
def gaFitness (A : Analyzer) (tmax : ℚ) : ℚ :=
  -A.totalTravelTime - ((A.tripAll : ℤ) - (A.tripCompleted : ℤ) : ℤ) * tmax

namespace GA
open RandM

/-- `max(aspirants, key=lambda x: x[1])[0]`: the first maximum. -/
def fittest (f : Genome → ℚ) : List Genome → RandM Genome
  | [] => fail .valueError
  | g :: gs => pure (gs.foldl (fun b x => if f b < f x then x else b) g)

/-- `tournament_selection` with `k=3` (DTAsolvers.py:835–841). -/
def tournament (c : GaCfg) (pop : List Genome) : RandM (List Genome) :=
  collect (fun _ => do
    let aspirants ← sample pop 3
    fittest c.fitness aspirants) pop

/-- A slice `xs[a:b]`. -/
def slice {α : Type} (xs : List α) (a b : ℕ) : List α := (xs.drop a).take (b - a)

/-- The loop of `crossover` (DTAsolvers.py:849–858). -/
def crossLoop (p1 p2 : Genome) : (odd : Bool) → (last : ℕ) → List ℕ → Genome × Genome
  | _, _, [] => ([], [])
  | odd, last, pt :: pts =>
    let r := crossLoop p1 p2 (!odd) pt pts
    if odd then (slice p2 last pt ++ r.1, slice p1 last pt ++ r.2)
    else (slice p1 last pt ++ r.1, slice p2 last pt ++ r.2)

/-- `crossover` (DTAsolvers.py:843–859). -/
def crossover (c : GaCfg) (p1 p2 : Genome) : RandM (Genome × Genome) :=
  if p1.length ≤ c.nPoints then fail .valueError else do
    let pts ← sample ((List.range p1.length).drop 1) c.nPoints
    pure (crossLoop p1 p2 false 0 (pts.insertionSort (· ≤ ·) ++ [p1.length]))

/-- `mutate` (DTAsolvers.py:861–870): `genome_maxs[i]` of a too short list raises `IndexError`,
`randint(0, -1)` raises `ValueError`. -/
def mutate (rate : ℚ) : Genome → (maxs : List ℕ) → RandM Genome
  | [], _ => pure []
  | g :: gs, maxs => do
    let q ← random
    if q < rate then
      match maxs with
      | [] => fail .indexError
      | 0 :: _ => fail .valueError
      | (m + 1) :: ms => do
        let x ← randint 0 m
        let r ← mutate rate gs ms
        pure (x :: r)
    else do
      let r ← mutate rate gs maxs.tail
      pure (g :: r)

/-- `if b: child = mutate(child, …)`. -/
def mutateIf (c : GaCfg) (b : Bool) (g : Genome) : RandM Genome :=
  if b then mutate c.geneRate g c.maxs else pure g

/-- One iteration of the loop creating children (DTAsolvers.py:1018–1035). -/
def children (c : GaCfg) (selected : List Genome) (next : List Genome) : RandM (List Genome) := do
  let p1 ← choice selected
  let p2 ← choice selected
  let ch ← crossover c p1 p2
  let c1 ← mutateIf c (next.contains ch.1) ch.1
  let c2 ← mutateIf c (next.contains ch.2) ch.2
  let q ← random
  let d1 ← mutateIf c (decide (q < c.occurRate)) c1
  let d2 ← mutateIf c (decide (q < c.occurRate)) c2
  pure (next ++ [d1, d2])

/-- The elites: `sorted(…, reverse=True)[:elite_size]` (DTAsolvers.py:1015–1016); a stable sort in
decreasing order of fitness. -/
def elites (c : GaCfg) (pop : List Genome) : List Genome :=
  (pop.insertionSort (fun a b => c.fitness b ≤ c.fitness a)).take c.eliteSize

/-- Selection and the next generation (DTAsolvers.py:1009–1037). -/
def generation (c : GaCfg) (pop : List Genome) : RandM (List Genome) := do
  let selected ← tournament c pop
  let next ← times (children c selected) (c.popSize / 2) (elites c pop)
  pure (next.take c.popSize)

/-- `W_best` of a generation (DTAsolvers.py:971–986): the first genome of maximal fitness. -/
def genBest (f : Genome → ℚ) (pop : List Genome) : Option Genome :=
  pop.foldl (fun b g => match b with
    | none => some g
    | some h => if f h < f g then some g else some h) none

/-- Result of `solve`: the genomes whose worlds are `W_sol` and `W_intermid_solution`. -/
structure Result where
  sol : Option Genome
  intermid : Option Genome
  deriving DecidableEq, Repr

/-- The loop over the generations (DTAsolvers.py:966–1045): `W_sol` is the world simulated last, that
is of the last genome of the last generation, `W_intermid_solution` is `W_best` of that generation. The
next generation is also computed after the last one. -/
def solveLoop (c : GaCfg) : ℕ → Result → List Genome → RandM (Result × List Genome)
  | 0, R, pop => pure (R, pop)
  | k + 1, R, pop => do
    let pop' ← generation c pop
    solveLoop c k { sol := match pop.getLast? with | some g => some g | none => R.sol
                    intermid := genBest c.fitness pop } pop'

/-- A random genome (DTAsolvers.py:949): `randint(0, -1)` raises `ValueError`. -/
def randGenome (c : GaCfg) : RandM Genome :=
  collect (fun m => match m with
    | 0 => fail .valueError
    | m + 1 => randint 0 m) c.maxs

/-- `population[k] = mutate(population[0], rate, genome_maxs)`. -/
def mutateInto (c : GaCfg) (rate : ℚ) (pop : List Genome) (k : ℕ) : RandM (List Genome) :=
  match pop with
  | [] => fail .indexError
  | g :: _ => do
    let m ← mutate rate g c.maxs
    pure (pop.set k m)

/-- The initial population (DTAsolvers.py:944–964); `init` is the genome of the initial solution, which
overwrites the first random genome. With two or three individuals the second loop mutates the initial
solution itself. -/
def initPop (c : GaCfg) (init : Genome) : RandM (List Genome) := do
  let pop ← collect (fun _ => randGenome c) (List.range c.popSize)
  if pop.length = 0 ∧ init ≠ [] then fail .indexError else do
    let light ← loop (mutateInto c (1 / 20)) (pop.set 0 init) ((List.range (c.popSize / 4)).drop 1)
    loop (mutateInto c (1 / 10)) light ((List.range (c.popSize / 2)).drop (c.popSize / 4))

/-- `SolverDSO_GA.solve` for `max_iter` generations (DTAsolvers.py:944–1045). -/
def solve (c : GaCfg) (init : Genome) (maxIter : ℕ) : RandM (Result × List Genome) := do
  let pop ← initPop c init
  solveLoop c maxIter { sol := some init, intermid := none } pop

end GA
end UX
