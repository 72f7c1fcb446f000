import Verif.Proofs.SInv

/-! What no primitive of a simulation step changes. -/

namespace UX
open World

/-- Network, parameters and vehicle settings are the same. -/
structure Static (W W' : World) : Prop where
  cfg : W'.cfg = W.cfg
  nNodes : W'.nNodes = W.nNodes
  nLinks : W'.nLinks = W.nLinks
  nVeh : W'.nVeh = W.nVeh
  finalized : W'.finalized = W.finalized
  T : W'.T = W.T
  time : W'.time = W.time
  tsize : W'.tsize = W.tsize
  tmax : W'.tmax = W.tmax
  nodeDict : W'.nodeDict = W.nodeDict
  linkDict : W'.linkDict = W.linkDict
  vehDict : W'.vehDict = W.vehDict
  prefCache : W'.prefCache = W.prefCache
  nname : W'.N.name = W.N.name
  nx : W'.N.x = W.N.x
  ny : W'.N.y = W.N.y
  inlinks : W'.N.inlinks = W.N.inlinks
  outlinks : W'.N.outlinks = W.N.outlinks
  signal : W'.N.signal = W.N.signal
  flowCap : W'.N.flowCap = W.N.flowCap
  nlanes : W'.N.lanes = W.N.lanes
  lname : W'.L.name = W.L.name
  startN : W'.L.startN = W.L.startN
  endN : W'.L.endN = W.L.endN
  length : W'.L.length = W.L.length
  lanes : W'.L.lanes = W.L.lanes
  u : W'.L.u = W.L.u
  kappa : W'.L.kappa = W.L.kappa
  tau : W'.L.tau = W.L.tau
  w : W'.L.w = W.L.w
  capacity : W'.L.capacity = W.L.capacity
  deltaPerLane : W'.L.deltaPerLane = W.L.deltaPerLane
  delta : W'.L.delta = W.L.delta
  kStar : W'.L.kStar = W.L.kStar
  qStar : W'.L.qStar = W.L.qStar
  signalGroup : W'.L.signalGroup = W.L.signalGroup
  toll : W'.L.toll = W.L.toll
  mergePriority : W'.L.mergePriority = W.L.mergePriority
  capOut : W'.L.capOut = W.L.capOut
  capIn : W'.L.capIn = W.L.capIn
  vname : W'.V.name = W.V.name
  orig : W'.V.orig = W.V.orig
  depTime : W'.V.depTime = W.V.depTime
  depSec : W'.V.depSec = W.V.depSec
  principle : W'.V.principle = W.V.principle
  mode : W'.V.mode = W.V.mode
  linksPrefer : W'.V.linksPrefer = W.V.linksPrefer
  linksAvoid : W'.V.linksAvoid = W.V.linksAvoid
  specRoute : W'.V.specRoute = W.V.specRoute
  tripAbort : W'.V.tripAbort = W.V.tripAbort

theorem Static.refl (W : World) : Static W W := by constructor <;> rfl

theorem Static.trans {W1 W2 W3 : World} (h1 : Static W1 W2) (h2 : Static W2 W3) : Static W1 W3 := by
  cases h1; cases h2; constructor <;> (apply Eq.trans <;> assumption)

theorem Soft.static {W W' : World} (h : Soft W W') : Static W W' := by
  obtain ⟨_, _, _, _, _, _, _, rfl, -⟩ := h
  constructor <;> rfl

theorem static_moveVeh {W W' : World} {n v a b} (h : W.moveCore n v a b = .ok W') : Static W W' := by
  obtain ⟨-, -, -, o, ho, rfl⟩ := moveCore_ok h
  constructor <;> rfl

theorem static_record (W : World) (v e) : Static W (W.recordLog v e) := by
  obtain ⟨log, s, c, lt, lo, hr⟩ := recordLog_frame W v e
  rw [hr]
  constructor <;> rfl

theorem Prim.static {W W' : World} {act : Act} (hp : Prim act W W') : Static W W' := by
  cases hp with
  | linkTick _ h1 => obtain ⟨_, rfl⟩ := linkUpdate_ok h1; constructor <;> rfl
  | nodeTick _ h1 => obtain ⟨_, _, _, _, rfl⟩ := nodeUpdate_ok h1; constructor <;> rfl
  | depart _ hq hc hl _ h1 => obtain ⟨-, o, ho, rfl⟩ := depart_ok h1; constructor <;> rfl
  | move _ hi hl hv hr _ _ _ _ h1 => exact static_moveVeh h1
  | endTrip hl hv _ h1 =>
    obtain ⟨_, _, _, _, _, _, rfl⟩ := endTrip_ok h1
    refine Static.trans (?_ : Static W (W.endTripCore _ _)) (static_record _ _ _)
    constructor <;> rfl
  | clearInc => constructor <;> rfl
  | carfollow _ h1 => obtain ⟨_, _, _, _, rfl, _⟩ := carfollow_ok h1; constructor <;> rfl
  | record => exact static_record _ _ _
  | startWait hv => unfold World.startWait; split <;> (constructor <;> rfl)
  | advance _ _ hi => constructor <;> rfl
  | routing => constructor <;> rfl
  | event _ _ h1 => exact (runEvent_soft h1).static
  | @nextDest _ v =>
    obtain ⟨d, dl, hd⟩ := nextDest_frame W v
    rw [hd]
    constructor <;> rfl
  | flagEnd => constructor <;> rfl
  | flagAbort => constructor <;> rfl
  | choose _ h1 => obtain ⟨_, _, _, _, rfl, _⟩ := nextLinkChoice_ok h1; constructor <;> rfl
  | pushInc ha => constructor <;> rfl

end UX
