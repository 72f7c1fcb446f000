import Verif.Model.CppDemand
import Verif.Spec.Areas
import Verif.Spec.CppWrap
import Mathlib.Logic.Relation

/-!
# Trips generated in the C++ mode (C120)
-/

namespace UX.Cpp.Spec

/-- `c'` is `c` with one more vehicle for each trip, in order, which waits at home for its departure. -/
structure CMade (ts : List Trip) (c c' : CWorld) : Prop where
  number : c'.g.nVehs = c.g.nVehs + ts.length
  old : ∀ i < c.g.nVehs, c'.veh i = c.veh i
  new : ∀ j t, ts[j]? = some t → (c'.veh (c.g.nVehs + j)).orig = t.orig ∧ (c'.veh (c.g.nVehs + j)).dest = t.dest ∧
    (c'.veh (c.g.nVehs + j)).depTime = t.step * c.g.deltaT ∧ (c'.veh (c.g.nVehs + j)).state = .home ∧
    (c'.veh (c.g.nVehs + j)).prefer = [] ∧ (c'.veh (c.g.nVehs + j)).avoid = []
  links : c'.link = c.link
  nodes : c'.node = c.node

/-- The demand of a call is `r` vehicles per second. -/
def Rate (t0 t1 flow volume r : ℚ) : Prop :=
  0 ≤ flow ∧ volume = -1 ∧ r = flow ∨ 0 < volume ∧ r = volume / (t1 - t0)

/-- The demand of a call is `v` vehicles. -/
def Volume (t0 t1 flow volume v : ℚ) : Prop :=
  0 ≤ v ∧ (volume = v ∨ volume = -1 ∧ 0 ≤ flow ∧ v = flow * (t1 - t0))

/-- One platoon for each full `deltaN` of the volume, departures evenly spaced from `t0` to `t1` (both included), every
origin and destination a candidate. -/
structure Smooth (c : CWorld) (origs dests : ℕ → Prop) (t0 t1 v : ℚ) (trips : List Trip) : Prop where
  number : (trips.length : ℤ) = ⌊v / c.g.deltaN⌋
  steps : ∀ (j : ℕ) (t : Trip), trips[j]? = some t →
    t.step = ⌊(t0 + j * ((t1 - t0) / (trips.length - 1 : ℕ))) / c.g.deltaT⌋
  ends : ∀ t ∈ trips, origs t.orig ∧ dests t.dest

/-- Squared distance of node `n` from the point `(x, y)`. -/
def sqTo (pos : ℕ → ℚ × ℚ) (x y : ℚ) (n : ℕ) : ℚ := ((pos n).1 - x) ^ 2 + ((pos n).2 - y) ^ 2

/-- The candidates of an area: the usable nodes strictly inside; if there is none, the nearest node. -/
def AreaOf (c : CWorld) (pos : ℕ → ℚ × ℚ) (usable : ℕ → Prop) (x y r : ℚ) (n : ℕ) : Prop :=
  n < c.g.nNodes ∧
  ((usable n ∧ sqTo pos x y n < r ^ 2) ∨
    (∀ m < c.g.nNodes, ¬ (usable m ∧ sqTo pos x y m < r ^ 2)) ∧ ∀ m < c.g.nNodes, sqTo pos x y n ≤ sqTo pos x y m)

/-- Some link begins, or ends, at node `n`. -/
def CanLeave (c : CWorld) (n : ℕ) : Prop := (c.node n).outLinks ≠ []
def CanEnter (c : CWorld) (n : ℕ) : Prop := (c.node n).inLinks ≠ []

instance (c : CWorld) (n : ℕ) : Decidable (CanLeave c n) := inferInstanceAs (Decidable (_ ≠ _))
instance (c : CWorld) (n : ℕ) : Decidable (CanEnter c n) := inferInstanceAs (Decidable (_ ≠ _))

/-- A world that calls have produced, with exact arithmetic and one attribute for each vehicle. -/
structure Good (D : DWrap) : Prop where
  reach : WReach NotNumber D.w
  fl : D.w.c.g.fl = id
  dt : 0 < D.w.c.g.deltaT
  dn : 0 < D.w.c.g.deltaN
  attrs : D.attrs.length = D.w.c.g.nVehs

/-- A call turned `D` into `D'`: the given trips were added, each with attribute `attr`, and nothing else changed in the
engine; and the registries are those of a history of single calls (so C108 holds of them). -/
structure Result (attr : Option String) (trips : List Trip) (D D' : DWrap) : Prop where
  made : CMade trips D.w.c D'.w.c
  attrs : D'.attrs = D.attrs ++ List.replicate trips.length attr
  path : Relation.ReflTransGen (WStep NotNumber) D.w D'.w
  good : Good D'

end UX.Cpp.Spec
