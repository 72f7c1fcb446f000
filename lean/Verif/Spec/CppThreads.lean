import Verif.Model.CppBuild

/-!
# Specification: what a piece of code reads and writes in a world of the C++ engine
-/

namespace UX.Cpp.Spec

/-- A set of nodes, links and vehicles. -/
structure Objects where
  node : ℕ → Prop
  link : ℕ → Prop
  veh : ℕ → Prop

/-- The two worlds have the same globals, the same network and the same objects of `R`. -/
def SameOn (R : Objects) (W X : CWorld) : Prop :=
  X.g = W.g ∧ (∀ n, (X.node n).outLinks = (W.node n).outLinks) ∧
  (∀ l, (X.link l).dst = (W.link l).dst) ∧
  (∀ n, R.node n → X.node n = W.node n) ∧ (∀ l, R.link l → X.link l = W.link l) ∧
  ∀ v, R.veh v → X.veh v = W.veh v

/-- `f` changes no object outside `R` and no global, and what it makes of the objects of `R` depends on
nothing but those objects, the globals and the network. -/
def Confined (R : Objects) (f : CWorld → CWorld) (W : CWorld) : Prop :=
  (f W).g = W.g ∧ (∀ n, ¬ R.node n → (f W).node n = W.node n) ∧
  (∀ l, ¬ R.link l → (f W).link l = W.link l) ∧ (∀ v, ¬ R.veh v → (f W).veh v = W.veh v) ∧
  ∀ X, SameOn R W X → SameOn R (f W) (f X)

/-- No object is in both sets. -/
def Apart (A B : Objects) : Prop :=
  (∀ k, ¬ (A.node k ∧ B.node k)) ∧ (∀ k, ¬ (A.link k ∧ B.link k)) ∧ ∀ k, ¬ (A.veh k ∧ B.veh k)

/-- A link and the vehicles on it. -/
def linkObjects (W : CWorld) (l : ℕ) : Objects :=
  { node := fun _ => False, link := fun k => k = l, veh := fun v => v ∈ (W.link l).vehs }

/-- A node, the vehicles waiting there, its out-links and the vehicles on them. -/
def nodeObjects (W : CWorld) (n : ℕ) : Objects :=
  { node := fun k => k = n
    link := fun k => k ∈ (W.node n).outLinks
    veh := fun v => v ∈ (W.node n).genQ ∨ ∃ l ∈ (W.node n).outLinks, v ∈ (W.link l).vehs }

/-- A node and the vehicles waiting there. -/
def queueObjects (W : CWorld) (n : ℕ) : Objects :=
  { node := fun k => k = n, link := fun _ => False, veh := fun v => v ∈ (W.node n).genQ }

/-- Worlds during `main_loop`: those between two calls of the bindings and all that the pieces of a time
step, in any order and number, make of them. The RUN pass of a link needs the arrival buffer that
`transfer` has emptied. -/
inductive During : CWorld → Prop
  | start {W : CWorld} : CReach W → During W
  | clear {W : CWorld} : During W → During W.clearExc
  | linkUpdate {W : CWorld} (l : ℕ) : During W → During (W.linkUpdate l)
  | nodeStage {W : CWorld} (n : ℕ) : During W → During (W.nodeStage n)
  | transfer {W : CWorld} (n : ℕ) : During W → During (W.transfer n)
  | followPass {W : CWorld} (l : ℕ) : During W → During (W.followPass l)
  | runPass {W : CWorld} (l : ℕ) : During W → (W.link l).arrived = [] → During (W.runPass l)
  | waitPass {W : CWorld} (n : ℕ) : During W → During (W.waitPass n)
  | home {W : CWorld} (v : ℕ) : During W → v < W.g.nVehs → (W.veh v).state = .home →
      During (W.vehUpdate v none)
  | reconcile {W : CWorld} : During W → During W.reconcile
  | routeStep {W : CWorld} : During W → During W.routeStep
  | tick {W : CWorld} : During W →
      During { W with g := { W.g with timestep := W.g.timestep + 1 } }

end UX.Cpp.Spec
