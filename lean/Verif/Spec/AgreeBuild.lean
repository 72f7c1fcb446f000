import Verif.Spec.Agree
import Verif.Model.Build
import Verif.Model.CppBuild

/-!
# The same scenario given to both engines

`cppNode…` and `cppLink` translate the arguments of a call as the wrapper of the C++ engine does;
`Together` makes the same calls in both engines. `SameBuilt` says what both then hold.
-/

namespace UX.Agree
open Cpp

/-- Both worlds hold the same objects and every object has the same view; vehicles have the same
origin and depart in the same time step, the same vehicles are alive and the same wait at nodes. -/
structure SameBuilt (P : World) (C : CWorld) : Prop where
  fl : C.g.fl = P.cfg.fl
  tau : C.g.tau = P.cfg.reactionTime
  dt : C.g.deltaT = P.cfg.deltat
  dn : C.g.deltaN = P.cfg.deltan
  time : C.g.timestep = P.T
  det : C.g.hardDet = P.cfg.hardDet
  nodes : C.g.nNodes = P.nNodes
  links : C.g.nLinks = P.nLinks
  vehs : C.g.nVehs = P.nVeh
  link : ∀ l, l < P.nLinks → pLink P l = cLink (C.link l)
  veh : ∀ v, v < P.nVeh → pVeh P v = cVeh (C.veh v)
  node : ∀ n, n < P.nNodes → pNode P n = cNode (C.node n)
  orig : ∀ v, v < P.nVeh → P.V.orig v = (C.veh v).orig
  depart : ∀ v, v < P.nVeh → (C.veh v).depTime = P.cfg.fl (P.V.depTime v * P.cfg.deltat)
  alive : ∀ v, v < P.nVeh → (v ∈ P.living ↔ C.g.living v = true)
  wait : ∀ n, n < P.nNodes → P.N.incoming n = (C.node n).incoming
  /-- the flow model of a link: jam density, reaction time, wave speed, capacity, jam spacing -/
  flow : ∀ l, l < P.nLinks → P.L.kappa l = (C.link l).kappa ∧ P.L.tau l = (C.link l).tau ∧
    P.L.w l = (C.link l).bws ∧ P.L.capacity l = (C.link l).cap ∧ P.L.delta l = (C.link l).delta
  /-- recorded travel times are those at free flow -/
  times : ∀ l, l < P.nLinks → ∃ m, (C.link l).ttReal =
    List.replicate m (P.cfg.fl (P.L.length l / P.L.u l))
  /-- nodes list links that exist -/
  real : ∀ n l, l ∈ P.N.inlinks n ∨ l ∈ P.N.outlinks n → l < P.nLinks
  /-- nobody waits: neither at a node, nor in the arrival buffer of a link -/
  quiet : (∀ n, n < P.nNodes → P.N.incoming n = [] ∧ P.N.genq n = []) ∧
    ∀ l, l < P.nLinks → (C.link l).arrived = []

/-- The offset `CppNode.__init__` passes on (uxsim_cpp_wrapper.py:52–54). -/
def cppOffset (fl : ℚ → ℚ) (a : World.NodeArgs) : ℚ :=
  match a.signalOffsetOld with
  | some o => fl (a.signal.foldl (fun s q => fl (s + q)) 0 - o)
  | none => a.signalOffset

/-- The node capacity `CppNode.__init__` passes on (uxsim_cpp_wrapper.py:74). -/
def cppCap (a : World.NodeArgs) : ℚ :=
  match a.flowCap with
  | some c => c
  | none => -1

/-- The number of lanes `CppNode.__init__` passes on (uxsim_cpp_wrapper.py:75). -/
def cppLanes (a : World.NodeArgs) : ℤ :=
  match a.lanes with
  | some k => k
  | none => -1

/-- The arguments `CppLink.__init__` passes on (uxsim_cpp_wrapper.py:199, 223–232). -/
def cppLink (fl : ℚ → ℚ) (a : World.LinkArgs) (rng : ℕ → ℕ) : CWorld.LinkArgs :=
  { vmax := a.u
    kappa := match a.jamPerLane with | some j => fl (j * a.lanes) | none => a.jamDensity
    len := a.length, lanes := (pyInt a.lanes).toNat, mergePri := a.mergePriority
    capOut := match a.capOut with | some c => c | none => -1
    capIn := match a.capIn with | some c => c | none => -1
    group := a.signalGroup, rng := rng }

/-- Node parameters for which the engines agree: a node with a capacity has a positive capacity, a
positive number of lanes if any is given, and arithmetic is then exact. -/
def PlainNode (fl : ℚ → ℚ) (a : World.NodeArgs) : Prop :=
  ∀ c, a.flowCap = some c → 0 < c ∧ fl = id ∧ ∀ k, a.lanes = some k → 0 < k

/-- Link parameters for which the engines agree: positive jam density, no negative capacity. -/
def PlainLink (fl : ℚ → ℚ) (a : World.LinkArgs) : Prop :=
  (match a.jamPerLane with | some j => 0 < fl (j * a.lanes) | none => 0 < a.jamDensity) ∧
  (∀ c, a.capOut = some c → 0 ≤ c) ∧ ∀ c, a.capIn = some c → 0 ≤ c

/-- `d` is the departure time in seconds of a vehicle asked for at `t`; seconds lie on the grid of
time steps. -/
def DepartsAt (cfg : Config) (d : ℚ) : World.DepTime → Prop
  | .step k => d = cfg.fl (k * cfg.deltat)
  | .sec t => d = t ∧ cfg.fl = id ∧ cfg.deltat ≠ 0 ∧ ∃ k : ℤ, t = k * cfg.deltat

/-- The flow `adddemand` of the wrapper passes on (uxsim_cpp_wrapper.py:1004–1005). -/
def cppFlow (fl : ℚ → ℚ) (t0 t1 flow volume : ℚ) : ℚ :=
  if 0 < volume then fl (volume / fl (t1 - t0)) else flow

/-- The same calls are made in both engines, and succeed. -/
inductive Together : World → CWorld → Prop
  | start (cfg : Config) (tmax : Option ℚ) (rng : ℕ → ℕ) (tMax duoTime duoWeight noise : ℚ)
      (gradual noCyclic adjustCap logMode : Bool) (tt : ℕ) :
      Together (World.new cfg tmax rng)
        (CWorld.empty cfg.fl tMax cfg.deltan cfg.reactionTime duoTime duoWeight noise cfg.hardDet gradual
          noCyclic adjustCap logMode tt)
  | node {P P' : World} {C C' : CWorld} (a : World.NodeArgs) (rng : ℕ → ℕ) (fuel : ℕ) :
      Together P C → PlainNode P.cfg.fl a → P.addNode fuel a = .ok P' →
      C.addNode a.signal (cppOffset P.cfg.fl a) (cppCap a) (cppLanes a) rng fuel = some C' →
      Together P' C'
  | link {P P' : World} {C : CWorld} (a : World.LinkArgs) (rng : ℕ → ℕ) (s e : ℕ) :
      Together P C → PlainLink P.cfg.fl a → P.getNode a.startN = .ok s → P.getNode a.endN = .ok e →
      P.addLink a = .ok P' → Together P' (C.addLink s e (cppLink P.cfg.fl a rng))
  | veh {P P' : World} {C : CWorld} (a : World.VehArgs) (d : ℚ) (r : Ref) (o e : ℕ) (prefer : List ℕ) :
      Together P C → a.tripAbort = true → a.dest = some r → P.getNode a.orig = .ok o →
      P.getNode r = .ok e → DepartsAt P.cfg d a.dep → P.addVehicle a = .ok P' →
      Together P' (C.addVehicle d o e prefer)
  | demand {P P' : World} {C C' : CWorld} (o d : Ref) (t0 t1 flow volume : ℚ) (a e fuel : ℕ) :
      Together P C → P.getNode o = .ok a → P.getNode d = .ok e →
      P.addDemand o d t0 t1 flow volume = .ok P' →
      C.addDemand a e t0 t1 (cppFlow P.cfg.fl t0 t1 flow volume) [] fuel = some C' → Together P' C'

end UX.Agree
