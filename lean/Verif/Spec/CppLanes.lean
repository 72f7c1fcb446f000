import Verif.Model.CppSim

/-!
# Specification: lanes of the C++ engine
-/

namespace UX.Cpp.Spec

/-- The vehicles `q` of a link with `lanes` lanes, front first, take the lanes in turn. -/
structure Turns (lanes : ℕ) (q : List ℕ) (lane : ℕ → ℕ) : Prop where
  range : ∀ v ∈ q, lane v < lanes
  next : ∀ i u w, q[i]? = some u → q[i + 1]? = some w → lane w = (lane u + 1) % lanes

/-- The first vehicle of `q` in lane `k`. -/
def firstIn (lane : ℕ → ℕ) (k : ℕ) (q : List ℕ) : Option ℕ := q.find? (fun u => lane u = k)

/-- How many vehicles of `q` are in lane `k`. -/
def inLane (lane : ℕ → ℕ) (k : ℕ) (q : List ℕ) : ℕ := (q.filter (fun u => lane u = k)).length

end UX.Cpp.Spec
