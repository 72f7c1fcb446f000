import Verif.Spec.CppWork

/-!
# Specification: what a vehicle of the C++ engine carries over the end of a link
-/

namespace UX.Cpp.Spec
open CWorld

/-- The vehicle that the one in place `i` on link `l` follows: the one as many places ahead as the link has
lanes. -/
def placesAhead (W : CWorld) (l i : ℕ) : Option ℕ :=
  if (W.link l).lanes ≤ i then (W.link l).vehs[i - (W.link l).lanes]? else none

/-- How far a vehicle at `x` would get on link `l` in one time step if the link went on beyond its end. -/
def beyond (W : CWorld) (l : ℕ) (x : ℚ) (ahead : Option ℚ) : ℚ :=
  max x
    (match ahead with
    | none => W.g.fl (x + W.g.fl ((W.link l).vmax * W.g.deltaT))
    | some y => min (W.g.fl (x + W.g.fl ((W.link l).vmax * W.g.deltaT))) (W.g.fl (y - jamGap W l)))

/-- Where a vehicle that had `m` metres left to drive at the end of link `a` gets on link `b`: the time for
these `m` metres is driven at the speed of `b`, at most to the jam spacing behind the vehicle ahead, and not
beyond the end of `b`. -/
def entryPos (W : CWorld) (a b : ℕ) (m : ℚ) (ahead : Option ℚ) : ℚ :=
  let s := W.g.fl (W.g.fl (m * (W.link b).vmax) / (W.link a).vmax)
  max 0 (min (W.link b).len
    (match ahead with
    | none => s
    | some y => min s (max 0 (W.g.fl (y - jamGap W b)))))

end UX.Cpp.Spec
