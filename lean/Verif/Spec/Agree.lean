import Verif.Model.Sim
import Verif.Model.CppSim

/-!
# What the two engines show of a link, a vehicle and a node

The Python engine and the C++ engine store the same traffic in different structures. Each `…View`
lists what both store; a pair of functions reads it off either engine. Two worlds are alike when all
views agree. The functions only read fields; no rule of either model is used here.
-/

namespace UX.Agree
open Cpp

/-- What both engines store of a link that takes part in the movement of vehicles. -/
structure LinkView where
  src : ℕ
  dst : ℕ
  len : ℚ
  lanes : ℕ
  speed : ℚ
  /-- jam spacing in one lane -/
  spacing : ℚ
  priority : ℚ
  group : List ℕ
  capOut : ℚ
  capOutLeft : ℚ
  capIn : ℚ
  capInLeft : ℚ
  /-- vehicles, front first -/
  queue : List ℕ

/-- The trip has not ended. -/
def live : VState → Bool
  | .ended => false
  | .abort => false
  | _ => true

/-- What both engines store of a vehicle that takes part in its movement. -/
structure VehView where
  state : VState
  link : Option ℕ
  x : ℚ
  xNext : ℚ
  xOld : ℚ
  v : ℚ
  carry : ℚ
  lane : ℕ
  leader : Option ℕ
  follower : Option ℕ
  dist : ℚ
  aborts : Bool
  mayAbort : Bool
  dest : Option ℕ
  /-- time of arrival on its link; nothing for a vehicle that is on no link -/
  entered : Option ℚ
  /-- the trip has not ended and the vehicle waits for its end -/
  waits : Bool

/-- What both engines store of a node, without the vehicles waiting to be transferred. -/
structure NodeView where
  inLinks : List ℕ
  outLinks : List ℕ
  queue : List ℕ
  plan : List ℚ
  phase : ℕ
  /-- clock of a plan with at least two phases -/
  clock : ℚ
  /-- node capacity, nothing if unlimited -/
  cap : Option ℚ
  capLeft : ℚ
  /-- lanes counted at a node with a capacity -/
  lanes : ℤ

/-- A link of the Python engine. -/
def pLink (P : World) (l : ℕ) : LinkView :=
  { src := P.L.startN l, dst := P.L.endN l, len := P.L.length l, lanes := P.L.lanes l
    speed := P.L.u l, spacing := P.L.deltaPerLane l, priority := P.L.mergePriority l
    group := P.L.signalGroup l, capOut := P.L.capOut l, capOutLeft := P.L.capOutRem l
    capIn := P.L.capIn l, capInLeft := P.L.capInRem l, queue := P.L.vehs l }

/-- A link of the C++ engine. -/
def cLink (L : CLink) : LinkView :=
  { src := L.src, dst := L.dst, len := L.len, lanes := L.lanes, speed := L.vmax
    spacing := L.deltaLane, priority := L.mergePri, group := L.group, capOut := L.capOut
    capOutLeft := L.capOutRem, capIn := L.capIn, capInLeft := L.capInRem, queue := L.vehs }

/-- A vehicle of the Python engine. -/
def pVeh (P : World) (v : ℕ) : VehView :=
  { state := P.V.state v, link := P.V.link v, x := P.V.x v, xNext := P.V.xNext v
    xOld := P.V.xOld v, v := P.V.v v, carry := P.V.moveRemain v, lane := P.V.lane v
    leader := P.V.leader v, follower := P.V.follower v, dist := P.V.dist v
    aborts := P.V.flagAborted v, mayAbort := P.V.tripAbort v, dest := P.V.dest v
    entered := (P.V.link v).map (fun _ => P.V.linkArrTime v)
    waits := live (P.V.state v) && P.V.flagEnd v }

/-- A vehicle of the C++ engine. -/
def cVeh (V : CVeh) : VehView :=
  { state := V.state, link := V.link, x := V.x, xNext := V.xNext, xOld := V.xOld, v := V.v
    carry := V.moveRem, lane := V.lane, leader := V.leader, follower := V.follower, dist := V.dist
    aborts := V.flagAbort, mayAbort := V.tripAbort, dest := some V.dest
    entered := V.link.map (fun _ => V.arrTimeLink)
    waits := live V.state && V.flagWait }

/-- A node of the Python engine. -/
def pNode (P : World) (n : ℕ) : NodeView :=
  { inLinks := P.N.inlinks n, outLinks := P.N.outlinks n, queue := P.N.genq n
    plan := P.N.signal n, phase := P.N.phase n
    clock := if 1 < (P.N.signal n).length then P.N.signalT n else 0
    cap := P.N.flowCap n, capLeft := P.N.flowCapRem n
    lanes := if P.N.flowCap n = none then 0 else (((P.N.lanes n).getD 0 : ℕ) : ℤ) }

/-- A node of the C++ engine. A negative capacity means none; a missing number of lanes counts as
one lane. -/
def cNode (N : CNode) : NodeView :=
  { inLinks := N.inLinks, outLinks := N.outLinks, queue := N.genQ, plan := N.sigInt
    phase := N.sigPhase, clock := if 1 < N.sigInt.length then N.sigT else 0
    cap := if 0 ≤ N.flowCap then some N.flowCap else none, capLeft := N.flowRem
    lanes := if 0 ≤ N.flowCap then (if 0 < N.lanes then N.lanes else 1) else 0 }

/-- The two worlds hold the same traffic: same clock, platoon size, rounding and mode, and the same
view of every link, vehicle and node. -/
structure Alike (P : World) (C : CWorld) : Prop where
  fl : C.g.fl = P.cfg.fl
  dt : C.g.deltaT = P.cfg.deltat
  dn : C.g.deltaN = P.cfg.deltan
  time : C.g.timestep = P.T
  det : C.g.hardDet = P.cfg.hardDet
  link : ∀ l, pLink P l = cLink (C.link l)
  veh : ∀ v, pVeh P v = cVeh (C.veh v)
  node : ∀ n, pNode P n = cNode (C.node n)

/-- The same vehicles wait to be transferred at node `n`, in the same order, for the same links. -/
structure SameWait (n : ℕ) (P : World) (C : CWorld) : Prop where
  list : P.N.incoming n = (C.node n).incoming
  next : ∀ v ∈ P.N.incoming n, ∀ b, P.V.rnl v = .to b ↔ (C.veh v).next = some b

/-- The vehicle chooses by the same preferences in both engines: it has no preferred or avoided
links and no fixed route, the same weight for every link, and no node is closed to it because it was
visited before. -/
structure SameChoice (P : World) (C : CWorld) (v : ℕ) : Prop where
  prefer : P.V.linksPrefer v = [] ∧ (C.veh v).prefer = []
  avoid : P.V.linksAvoid v = [] ∧ (C.veh v).avoid = []
  route : P.V.specRoute v = none ∧ (C.veh v).route = []
  weight : ∀ l, P.prefOf v l = .ok (C.g.pref (C.veh v).dest l)
  open_ : C.g.noCyclic = false ∨ ∀ m, (C.veh v).visited m = false

/-- In a step from `P` to `P'` and from `C` to `C'` vehicle `v` on link `a` asks in both engines, for the
same link, to be transferred, or in neither; no other vehicle asks and no other vehicle changes its
mind. -/
structure SameAsk (v a : ℕ) (P : World) (C : CWorld) (P' : World) (C' : CWorld) : Prop where
  others : ∀ w, w ≠ v → P'.V.rnl w = P.V.rnl w ∧ (C'.veh w).next = (C.veh w).next
  links : ∀ l, l ≠ a → (C'.link l).arrived = (C.link l).arrived
  nodes : ∀ n, (C'.node n).incoming = (C.node n).incoming ∧
    (n ≠ P.L.endN a → P'.N.incoming n = P.N.incoming n)
  own : (P'.N.incoming (P.L.endN a) = P.N.incoming (P.L.endN a) ∧
      (C'.link a).arrived = (C.link a).arrived) ∨
    (P'.N.incoming (P.L.endN a) = P.N.incoming (P.L.endN a) ++ [v] ∧
      (C'.link a).arrived = (C.link a).arrived ++ [v] ∧
      ∀ b, P'.V.rnl v = .to b ↔ (C'.veh v).next = some b)

/-- Parameters as a user gives them: no vehicle has negative movement left, no link has a negative
speed, length or priority; and rounding is monotone, exact at zero and idempotent. -/
structure Fit (P : World) : Prop where
  ok : FlOK P.cfg.fl
  left : ∀ v, v < P.nVeh → 0 ≤ P.V.moveRemain v
  links : ∀ l, l < P.nLinks → 0 ≤ P.L.u l ∧ 0 ≤ P.L.length l ∧ 0 ≤ P.L.mergePriority l

end UX.Agree
