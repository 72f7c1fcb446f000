import Verif.Model.CppSim

/-! # What routes between nodes are, for the C++ engine -/

namespace UX.Cpp.Spec
open CWorld

/-- `r` is a list of links leading from node `s` to node `t`. -/
def Leads (W : CWorld) : ℕ → ℕ → List ℕ → Prop
  | s, t, [] => s = t
  | s, t, l :: r => l < W.g.nLinks ∧ (W.link l).src = s ∧ Leads W (W.link l).dst t r

/-- The nodes on a list of links from `s`. -/
def stops (W : CWorld) (s : ℕ) (r : List ℕ) : List ℕ := s :: r.map (fun l => (W.link l).dst)

/-- The time a list of links takes in free flow. -/
def routeTime (W : CWorld) (r : List ℕ) : ℚ := (r.map (fun l => (W.link l).len / (W.link l).vmax)).sum

/-- No two links lead from the same node to the same node. -/
def NoParallel (W : CWorld) : Prop :=
  ∀ a b, a < W.g.nLinks → b < W.g.nLinks → (W.link a).src = (W.link b).src →
    (W.link a).dst = (W.link b).dst → a = b

/-- Every link has a positive length and speed. -/
def Passable (W : CWorld) : Prop := ∀ l, l < W.g.nLinks → 0 < (W.link l).len ∧ 0 < (W.link l).vmax

end UX.Cpp.Spec
