import Verif.Model.Reach

/-!
# Scenarios that must not crash (C34)

Conditions on what the user has set up, in terms of the current world.
-/

namespace UX

/-- A plain scenario: free-flow speeds are not zero and merge priorities not negative; every signal shows
a phase of its plan; the weight of a route update is between 0 and 1; no vehicle has an enforced route or
links to avoid; a vehicle with individual preferences (`heterogeneous_DUO`) makes a single trip with a
destination; the preferences of a vehicle cover all links and are not negative (a vehicle created before
a link misses that link); no taxi is told to go to more than one place at once; no trip request goes from
a node to itself. `cache` is the dictionary of preferences shared by new vehicles: it must have been made
after the last link. -/
structure Plain (W : World) : Prop where
  speed : ∀ l, l < W.nLinks → W.L.u l ≠ 0
  merge : ∀ l, l < W.nLinks → 0 ≤ W.L.mergePriority l
  signal : ∀ n, n < W.nNodes → W.N.phase n < (W.N.signal n).length
  weight : 0 ≤ W.cfg.duoUpdateWeight ∧ W.cfg.duoUpdateWeight ≤ 1
  gradual : W.cfg.gradual = true → 0 ≤ W.cfg.deltat ∧ 0 < W.cfg.duoUpdateTime ∧
    W.cfg.deltat ≤ W.cfg.duoUpdateTime
  free : ∀ v, v < W.nVeh → W.V.specRoute v = none ∧ W.V.linksAvoid v = []
  hetero : ∀ v, v < W.nVeh → W.V.principle v = .heterogeneous →
    W.V.mode v = .single ∧ W.V.dest v ≠ none
  dict : ∀ v, v < W.nVeh → ∀ f, W.V.pref v = .dict f → ∀ l, l < W.nLinks → ∃ q, f l = some q ∧ 0 ≤ q
  queue : ∀ v, v < W.nVeh → W.V.mode v = .taxi → W.V.destList v = []
  trip : ∀ r, r < W.H.nReq → W.H.orig r ≠ W.H.dest r
  cache : ∀ k, W.prefCache = some k → k = W.nLinks ∧ 0 < W.nVeh

/-- The settings of a world that C34 asks for. -/
def PlainConfig (c : Config) : Prop :=
  (0 ≤ c.duoUpdateWeight ∧ c.duoUpdateWeight ≤ 1) ∧
    (c.gradual = true → 0 ≤ c.deltat ∧ 0 < c.duoUpdateTime ∧ c.deltat ≤ c.duoUpdateTime)

open World

/-- The calls that C34 allows, with the conditions on their arguments. Links are added before vehicles; a
taxi gets a new destination only when it has none; a replaced signal plan either restarts or is not
shorter than the phase shown. -/
inductive PlainCall : World → World → Prop
  | addNode {W W' fuel a} : W.finalized = false → W.addNode fuel a = .ok W' → PlainCall W W'
  | addLink {W W' a} : W.finalized = false → W.nVeh = 0 → 0 ≤ a.mergePriority →
      W.addLink a = .ok W' → PlainCall W W'
  | addVehicle {W W' a} : a.linksAvoid = [] → a.routePref = none →
      (a.principle.getD W.cfg.principle = .heterogeneous → a.mode = .single ∧ a.dest ≠ none) →
      W.addVehicle a = .ok W' → PlainCall W W'
  | finalize {W tmax} : W.finalized = false → PlainCall W (W.finalize tmax)
  | tick {W W'} : W.finalized = true → W.T < W.tsize → W.tick = .ok W' → PlainCall W W'
  | endExec {W} : W.finalized = true → PlainCall W { W with time := W.now }
  | overrideSignal {W n sg off reset} : n < W.nNodes → sg ≠ [] →
      (reset = true ∨ W.N.phase n < sg.length) → PlainCall W (W.overrideSignal n sg off reset)
  | overrideSignalGroups {W W' n sg gs off reset} : n < W.nNodes → sg ≠ [] →
      (reset = true ∨ W.N.phase n < sg.length) → W.overrideSignalGroups n sg gs off reset = .ok W' →
      PlainCall W W'
  | setLinksPrefer {W W' v ls} : v < W.nVeh → W.setLinksPrefer v ls = .ok W' → PlainCall W W'
  | addDest {W W' v d k} : v < W.nVeh → d < W.nNodes → W.V.dest v = none → W.addDest v d k = .ok W' →
      PlainCall W W'
  | addTripRequest {W W' o d t} : (∀ n, W.getNode o = .ok n → W.getNode d ≠ .ok n) →
      W.addTripRequest o d t = .ok W' → PlainCall W W'
  | assignTaxi {W W' v r} : v < W.nVeh → W.V.dest v = none → W.assignTaxi v r = .ok W' → PlainCall W W'
  | setCapOut {W l q} : l < W.nLinks →
      PlainCall W { W with L := { W.L with capOut := upd W.L.capOut l q } }
  | setCapIn {W l q} : l < W.nLinks →
      PlainCall W { W with L := { W.L with capIn := upd W.L.capIn l q } }
  | changeFreeFlowSpeed {W W' l q} : l < W.nLinks → q ≠ 0 → W.changeFreeFlowSpeed l q = .ok W' →
      PlainCall W W'
  | changeJamDensity {W W' l q} : l < W.nLinks → W.L.vehs l = [] →
      W.changeJamDensity l q = .ok W' → PlainCall W W'
  | reseed {W r} : PlainCall W { W with rng := r }

/-- Worlds made by allowed calls. -/
inductive Valid : World → Prop
  | new {cfg tmax rng} : PlainConfig cfg → Valid (World.new cfg tmax rng)
  | next {W W'} : Valid W → PlainCall W W' → Valid W'

end UX
