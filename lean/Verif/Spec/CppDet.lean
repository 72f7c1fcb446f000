import Verif.Model.CppBuild

/-!
# Specification: worlds that differ only in their random streams
-/

namespace UX.Cpp.Spec
open CWorld

/-- Equal but for the random streams of nodes and links. -/
structure SameButRng (W V : CWorld) : Prop where
  glob : V.g = W.g
  veh : ∀ v, V.veh v = W.veh v
  node : ∀ n, ∃ r, V.node n = { W.node n with rng := r }
  link : ∀ l, ∃ r, V.link l = { W.link l with rng := r }

/-- Two worlds built and run by the same calls of the bindings, with other random streams and other orders of
the iterations of parallel loops. -/
inductive Twins : CWorld → CWorld → Prop
  | empty (fl : ℚ → ℚ) (tMax deltaN tau duoTime duoWeight noise : ℚ)
      (hardDet gradual noCyclic adjustCap logMode : Bool) (ttInterval : ℕ) :
      Twins (CWorld.empty fl tMax deltaN tau duoTime duoWeight noise hardDet gradual noCyclic adjustCap logMode ttInterval)
        (CWorld.empty fl tMax deltaN tau duoTime duoWeight noise hardDet gradual noCyclic adjustCap logMode ttInterval)
  | node {W V W' V' : CWorld} (ints : List ℚ) (off cap : ℚ) (lanes : ℤ) (r r' : ℕ → ℕ) (fuel : ℕ) : Twins W V →
      W.addNode ints off cap lanes r fuel = some W' → V.addNode ints off cap lanes r' fuel = some V' → Twins W' V'
  | link {W V : CWorld} (src dst : ℕ) (a : LinkArgs) (r : ℕ → ℕ) : Twins W V → src < W.g.nNodes → dst < W.g.nNodes →
      1 ≤ a.lanes → (∀ v, v < W.g.nVehs → (W.veh v).state ≠ .run) →
      Twins (W.addLink src dst a) (V.addLink src dst { a with rng := r })
  | vehicle {W V : CWorld} (dep : ℚ) (orig dest : ℕ) (prefer : List ℕ) : Twins W V → orig < W.g.nNodes →
      dest < W.g.nNodes → Twins (W.addVehicle dep orig dest prefer) (V.addVehicle dep orig dest prefer)
  | tmax {W V : CWorld} (t : ℚ) : Twins W V → Twins (W.setTMax t) (V.setTMax t)
  | init {W V : CWorld} : Twins W V → Twins W.initAdj V.initAdj
  | edit {W V : CWorld} (e : Edit) : Twins W V → Twins (W.edit e) (V.edit e)
  | run {W V : CWorld} (endTs : ℕ) (s s' : ℕ → CWorld → Sched) : Twins W V → (∀ t V, (s t V).Valid V) →
      (∀ t V, (s' t V).Valid V) → Twins (W.mainLoop s endTs).1 (V.mainLoop s' endTs).1

end UX.Cpp.Spec
