import Verif.Model.Random
import Verif.Model.Analyzer

/-!
# Adaptive large neighbourhood search

DTAsolvers/ALNS.py and `SolverDSO_ALNS` (DTAsolvers/DTAsolvers.py:1108–1368).

Simplifications. Values of the solution vector are natural numbers (route numbers). Arithmetic is
exact. The temperature enters through two arbitrary functions, its ratio to `T0` and the acceptance
probability `exp(-delta/T)` (ALNS.py:832–854). The costs used by the repair operator and the vehicles
found on delayed links are arbitrary inputs. The objective may give different values at different
evaluations. Counters of improvements per operator, logging of temperatures, and time limits are left
out.
-/

namespace UX

/-- A possibly incomplete solution; `None` marks destroyed positions. -/
abbrev Vec := List (Option ℕ)

/-- Keys of `_DESTROY_IMPLS` (ALNS.py:471–477). -/
inductive DOp
  | random | segment | earlyDep | lateDep | congestLink
  deriving DecidableEq, Repr

/-- Keys of `_REPAIR_IMPLS` (ALNS.py:597–600). -/
inductive ROp
  | random | minCost
  deriving DecidableEq, Repr

/-- Problem and parameters of a run (ALNS.py:223–290, 611–650). -/
structure AlnsCfg where
  /-- `sense == "max"` -/
  maximize : Bool
  /-- the objective at its `k`-th evaluation -/
  obj : ℕ → Vec → ℚ
  domains : List (List ℕ)
  destroySet : List DOp
  repairSet : List ROp
  kMin : ℕ
  kMax : ℕ
  alwaysAccept : Bool
  /-- `_temperature(state, it) / T0` -/
  ratio : ℕ → ℚ
  /-- `exp(-delta / max(T, 1e-12))` at an iteration -/
  boltz : ℕ → ℚ → ℚ
  segLen : ℤ
  eta : ℚ
  rewardBest : ℚ
  rewardImprove : ℚ
  rewardWorse : ℚ
  /-- estimated cost of a value at a position in `_repair_minimum_cost` -/
  cost : ℕ → ℕ → ℚ
  /-- ids of the vehicles in `vehicles_enter_log` of each of the most delayed links -/
  pools : List (List ℕ)

/-- `StepLog` (ALNS.py:20–60), the fields used here. -/
structure AlnsLog where
  iter : ℕ
  changed : List ℕ
  delta : ℚ
  accepted : Bool
  objVal : ℚ
  bestObj : ℚ
  deriving DecidableEq, Repr

/-- The changing part of `ALNSState` (ALNS.py:262–306). `steps` is newest first. `nEval` counts the
evaluations of the objective. -/
structure AlnsState where
  kCur : ℕ
  xCur : Vec
  xBest : Vec
  cur : ℚ
  best : ℚ
  it : ℕ
  nEval : ℕ
  dWeight : DOp → ℚ
  dScore : DOp → ℚ
  dUses : DOp → ℕ
  rWeight : ROp → ℚ
  rScore : ROp → ℚ
  rUses : ROp → ℕ
  segCount : ℤ
  steps : List AlnsLog

namespace ALNS
open RandM

/-- `_eval`, `_eval_internal` (ALNS.py:496–514, 746–748): the sign is reversed when maximizing. -/
def eval (c : AlnsCfg) (k : ℕ) (x : Vec) : ℚ := if c.maximize then -(c.obj k x) else c.obj k x

/-- `for i in removed: xx[i] = None` (ALNS.py:332–333); `IndexError` outside the vector. -/
def blank (x : Vec) : List ℕ → RandM Vec
  | [] => pure x
  | i :: is => if x.length ≤ i then fail .indexError else blank (x.set i none) is

/-- `rng.randint(state.k_min, min(state.k_cur, n))` -/
def pickSize (c : AlnsCfg) (s : AlnsState) (n : ℕ) : RandM ℕ := randint c.kMin (min s.kCur n)

/-- `destroy_random` (ALNS.py:312–334), and `destroy_early_departure`, `destroy_late_departure`
(370–432), which differ in the probabilities of the elements only. -/
def destroyRandom (c : AlnsCfg) (s : AlnsState) (x : Vec) : RandM (List ℕ × Vec) := do
  let k ← pickSize c s x.length
  let removed ← sample (List.range x.length) k
  let xx ← blank x removed
  pure (removed, xx)

/-- End of the destroyed segment (ALNS.py:354–363): `i` and `j` are the sorted random ends. -/
def segmentEnd (c : AlnsCfg) (s : AlnsState) (n i j : ℕ) : ℕ :=
  let j1 := if j - i + 1 < c.kMin then min (n - 1) (i + c.kMin - 1) else j
  if s.kCur < j1 - i + 1 then i + s.kCur - 1 else j1

/-- `destroy_segment` (ALNS.py:336–368). -/
def destroySegment (c : AlnsCfg) (s : AlnsState) (x : Vec) : RandM (List ℕ × Vec) :=
  if x.length < 2 then destroyRandom c s x else do
    let a ← randint 0 (x.length - 1)
    let b ← randint 0 (x.length - 1)
    let j := segmentEnd c s x.length (min a b) (max a b)
    let removed := (List.range (j + 1)).drop (min a b)
    let xx ← blank x removed
    pure (removed, xx)

/-- `destroy_congested_link` (ALNS.py:435–468): a vehicle may be chosen more than once; a link without
vehicles raises `ValueError`. -/
def destroyCongested (c : AlnsCfg) (s : AlnsState) (x : Vec) : RandM (List ℕ × Vec) := do
  let k ← pickSize c s x.length
  let removed ← collect (fun _ => do
    let pool ← choice c.pools
    choice pool) (List.range k)
  let xx ← blank x removed
  pure (removed, xx)

/-- `_DESTROY_IMPLS[d](state, state.x_cur)` -/
def destroy (c : AlnsCfg) (s : AlnsState) (x : Vec) : DOp → RandM (List ℕ × Vec)
  | .random | .earlyDep | .lateDep => destroyRandom c s x
  | .segment => destroySegment c s x
  | .congestLink => destroyCongested c s x

/-- Values offered at a position (ALNS.py:538–541): the current one is left out if there is another. -/
def choices (dom : List ℕ) (cur : Option ℕ) : List ℕ :=
  if 1 < dom.length then
    let o := dom.filter fun v => decide (some v ≠ cur)
    if o.isEmpty then dom else o
  else dom

/-- `_repair_random` (ALNS.py:516–543). -/
def repairRandom (c : AlnsCfg) (base partialX : Vec) (removed : List ℕ) : RandM (Vec × List ℕ) := do
  let x ← loop (fun x i =>
    match base[i]?, c.domains[i]? with
    | some cur, some dom => do
      let v ← choice (choices dom cur)
      pure (x.set i (some v))
    | _, _ => fail .indexError) partialX removed
  pure (x, removed)

/-- Loop over the domain in `_repair_minimum_cost` (ALNS.py:576–587); `cost_min = inf` is `none`.
Returns the least cost and `best_val`. -/
def cheapest (cost : ℕ → ℚ) : List ℕ → Option ℚ → Option ℕ → Option ℚ × Option ℕ
  | [], cm, bv => (cm, bv)
  | v :: vs, cm, bv =>
    match cm with
    | some q => if cost v < q then cheapest cost vs (some (cost v)) (some v)
        else cheapest cost vs cm bv
    | none => cheapest cost vs (some (cost v)) (some v)

/-- Loop variables of `_repair_minimum_cost`: `x`, `changed`, and `best_val`, which keeps its value
from the previous position. -/
structure MinAcc where
  x : Vec
  changed : List ℕ
  bestVal : Option ℕ

/-- Body of the loop of `_repair_minimum_cost` (ALNS.py:569–591). An unset `best_val` raises
`UnboundLocalError`. -/
def minStep (c : AlnsCfg) (a : MinAcc) (j : ℕ) : RandM MinAcc :=
  match a.x[j]?, c.domains[j]? with
  | some orig, some dom =>
    match (cheapest (c.cost j) dom none a.bestVal).2 with
    | none => fail .exception
    | some bv =>
      pure { x := a.x.set j (some bv)
             changed := if some bv ≠ orig then a.changed ++ [j] else a.changed
             bestVal := some bv }
  | _, _ => fail .indexError

/-- `_repair_minimum_cost` (ALNS.py:545–593): starts from the complete current solution. -/
def repairMinCost (c : AlnsCfg) (base : Vec) (removed : List ℕ) : RandM (Vec × List ℕ) := do
  let a ← loop (minStep c) { x := base, changed := [], bestVal := none } removed
  pure (a.x, a.changed)

/-- `_REPAIR_IMPLS[r](state, state.x_cur, partial, removed)` -/
def repair (c : AlnsCfg) (base partialX : Vec) (removed : List ℕ) : ROp → RandM (Vec × List ℕ)
  | .random => repairRandom c base partialX removed
  | .minCost => repairMinCost c base removed

/-- Loop of `_roulette_pick` (ALNS.py:876–881). -/
def roulette {κ : Type} (w : κ → ℚ) (r : ℚ) : List κ → ℚ → Option κ → Option κ
  | [], _, last => last
  | k :: ks, s, _ =>
    if r ≤ s + max (1 / 10 ^ 12) (w k) then some k
    else roulette w r ks (s + max (1 / 10 ^ 12) (w k)) (some k)

/-- `_roulette_pick` (ALNS.py:856–882) on the keys of the weight dictionary. -/
def roulettePick {κ : Type} [DecidableEq κ] (w : κ → ℚ) (keys : List κ) : RandM κ := do
  let q ← random
  let ks := keys.eraseDups
  match roulette w (q * (ks.map fun k => max (1 / 10 ^ 12) (w k)).sum) ks 0 none with
  | some k => pure k
  | none => fail .exception

/-- New weight of an operator (ALNS.py:898–902). -/
def newWeight (c : AlnsCfg) (w score : ℚ) (uses : ℕ) : ℚ :=
  (1 - c.eta) * w + c.eta * max (1 / 10 ^ 6) (score / (max 1 uses : ℕ))

/-- `_segment_update_weights` (ALNS.py:884–913). -/
def segmentUpdate (c : AlnsCfg) (s : AlnsState) : AlnsState :=
  if 0 < s.segCount then s
  else
    let s1 := c.destroySet.foldl (fun s m =>
      { s with
        dWeight := upd s.dWeight m (newWeight c (s.dWeight m) (s.dScore m) (s.dUses m))
        dScore := upd s.dScore m 0
        dUses := upd s.dUses m 0 }) s
    let s2 := c.repairSet.foldl (fun s m =>
      { s with
        rWeight := upd s.rWeight m (newWeight c (s.rWeight m) (s.rScore m) (s.rUses m))
        rScore := upd s.rScore m 0
        rUses := upd s.rUses m 0 }) s1
    { s2 with segCount := c.segLen }

/-- Reward of a step in `_reward_step` (ALNS.py:915–938). -/
def reward (c : AlnsCfg) (improvedBest accepted : Bool) (delta : ℚ) : ℚ :=
  if improvedBest then c.rewardBest
  else if accepted = true ∧ delta < 0 then c.rewardImprove
  else if accepted = true ∧ 0 < delta then c.rewardWorse
  else 0

/-- `k_cur` of a step (ALNS.py:957–963). -/
def sizeNow (c : AlnsCfg) (it : ℕ) : ℕ :=
  let k := pyInt (((c.kMax : ℚ) - c.kMin) * c.ratio it + c.kMin)
  let k := if k < c.kMin then (c.kMin : ℤ) else k
  let k := if (c.kMax : ℤ) < k then (c.kMax : ℤ) else k
  k.toNat

/-- The random part of the acceptance test (ALNS.py:984); Python evaluates it only if `delta > 0`. -/
def metropolis (c : AlnsCfg) (it : ℕ) (delta : ℚ) : RandM Bool :=
  if delta ≤ 0 then pure true
  else do
    let q ← random
    pure (decide (q < c.boltz it delta))

/-- Acceptance, best solution, rewards, weights and log (ALNS.py:984–1010): `xCand` is the candidate,
`cand` its value, `ok` the outcome of the annealing test. -/
def finish (c : AlnsCfg) (s : AlnsState) (d : DOp) (r : ROp) (xCand : Vec) (changed : List ℕ)
    (cand : ℚ) (ok : Bool) : AlnsState :=
  let delta := cand - s.cur
  let accept := (ok || c.alwaysAccept) && decide (0 < changed.length)
  let s1 := if accept then { s with xCur := xCand, cur := cand } else s
  let improved := decide (s1.cur < s1.best)
  let s2 := if improved then { s1 with best := s1.cur, xBest := s1.xCur } else s1
  let q := reward c improved accept delta
  let s3 := { s2 with
    dScore := upd s2.dScore d (s2.dScore d + q)
    rScore := upd s2.rScore r (s2.rScore r + q)
    it := s2.it + 1
    segCount := s2.segCount - 1 }
  let s4 := segmentUpdate c s3
  { s4 with
    steps := { iter := s4.it, changed := changed, delta := delta, accepted := accept
               objVal := if c.maximize then -s4.cur else s4.cur
               bestObj := if c.maximize then -s4.best else s4.best } :: s4.steps }

/-- `auto_step` (ALNS.py:943–1011). -/
def autoStep (c : AlnsCfg) (s0 : AlnsState) : RandM AlnsState := do
  let s := { s0 with kCur := sizeNow c s0.it }
  let d ← roulettePick s.dWeight c.destroySet
  let r ← roulettePick s.rWeight c.repairSet
  let s := { s with dUses := upd s.dUses d (s.dUses d + 1), rUses := upd s.rUses r (s.rUses r + 1) }
  let p ← destroy c s s.xCur d
  let q ← repair c s.xCur p.2 p.1 r
  let cand := eval c s.nEval q.1
  let ok ← metropolis c s.it (cand - s.cur)
  pure (finish c { s with nEval := s.nEval + 1 } d r q.1 q.2 cand ok)

/-- One trial of the estimation of the initial temperature (ALNS.py:775–782): the number of evaluations
grows, the solution found is dropped. -/
def trial (c : AlnsCfg) (x : Vec) (n : ℕ) : RandM ℕ := do
  let k ← randint c.kMin (min c.kMax x.length)
  let idx ← sample (List.range x.length) k
  let _xx ← loop (fun xx j =>
    match xx[j]?, c.domains[j]? with
    | some cur, some dom =>
      let o := dom.filter fun v => decide (some v ≠ cur)
      if o.isEmpty then pure xx else do
        let v ← choice o
        pure (xx.set j (some v))
    | _, _ => fail .indexError) x idx
  pure (n + 1)

/-- `_DESTROY_INITIAL_WEIGHTS` (ALNS.py:480–486). -/
def dInit : DOp → ℚ
  | .random | .segment | .congestLink => 1
  | .earlyDep => 5
  | .lateDep => 1 / 5

/-- The sizes stored by `init_alns` (ALNS.py:737–741). -/
def clampSizes (c : AlnsCfg) (n : ℕ) (kMin : Option ℕ) (kMax : ℕ) : AlnsCfg :=
  let a := max 1 (min (kMin.getD kMax) n)
  { c with kMin := a, kMax := max a (min kMax n) }

/-- `init_alns` (ALNS.py:611–830) with `trials` evaluations for the initial temperature. Returns the
configuration with the sizes clamped and the first state. -/
def init (c0 : AlnsCfg) (x : Vec) (kMin : Option ℕ) (kMax trials : ℕ) : RandM (AlnsCfg × AlnsState) :=
  let c := clampSizes c0 x.length kMin kMax
  if (c.domains.any fun d => d.isEmpty) ∨ c.destroySet = [] ∨ c.repairSet = [] then fail .valueError
  else do
    let cur := eval c 0 x
    let n ← times (trial c x) trials 1
    pure (c, { kCur := c.kMax, xCur := x, xBest := x, cur := cur, best := cur, it := 0, nEval := n
               dWeight := dInit, dScore := fun _ => 0, dUses := fun _ => 0
               rWeight := fun _ => 1, rScore := fun _ => 0, rUses := fun _ => 0
               segCount := c.segLen, steps := [] })

/-- `run_auto` without time limit (ALNS.py:1013–1036), and the result of `finalize` (1090–1127):
the best solution and `best_obj`. -/
def run (c0 : AlnsCfg) (x : Vec) (kMin : Option ℕ) (kMax trials n : ℕ) :
    RandM (AlnsCfg × AlnsState × Vec × ℚ) := do
  let p ← init c0 x kMin kMax trials
  let s ← times (autoStep p.1) n p.2
  pure (p.1, s, s.xBest, if p.1.maximize then -s.best else s.best)

/-! ## `SolverDSO_ALNS` -/

/-- `obj_value` computed from the statistics of a simulated world (DTAsolvers.py:1307). -/
def objective (A : Analyzer) (tmax : ℚ) : ℚ :=
  A.totalTravelTime - ((A.tripAll : ℤ) - (A.tripCompleted : ℤ) : ℤ) * tmax

/-- The initial vector without initial solution (DTAsolvers.py:1273): `randint(0, len(domain))`. -/
def solverInit (domains : List (List ℕ)) : RandM Vec :=
  collect (fun d => do
    let v ← randint 0 d.length
    pure (some v)) domains

/-- Search of the route of a vehicle of the initial solution (DTAsolvers.py:1243–1262): `costs` are the
travel times of its routes, `match_` says which routes equal the travelled one. `route_mintt` stays
infinite, so every route passes the test. Returns `route_id` and `route_id_mintt`. -/
def recoverRoute : List (Bool × ℚ) → (j : ℕ) → (minId : ℕ) → Option ℕ × ℕ
  | [], _, m => (none, m)
  | (same, _) :: rs, j, m => if same then (some j, m) else recoverRoute rs (j + 1) j

/-- The gene of a vehicle of the initial solution (DTAsolvers.py:1259–1262). -/
def initialGene (rs : List (Bool × ℚ)) : ℕ := (recoverRoute rs 0 0).1.getD (recoverRoute rs 0 0).2

/-- `best_obj_value` and the vector of `W_intermid_solution` after the given evaluations, oldest first
(DTAsolvers.py:1325–1328). -/
def bestEvaluated : List (Vec × ℚ) → Option (Vec × ℚ) :=
  List.foldl (fun b p => match b with
    | none => some p
    | some q => if p.2 < q.2 then some p else some q) none

end ALNS
end UX
