import Verif.Model.Reach
import Mathlib.Algebra.Order.Round

/-!
# A vehicle with a link of its own (C50)
-/

namespace UX

/-- Vehicle `v` makes a single trip over the only link `l` out of its origin `n`, to the end of that link.
No link enters `n` and no other vehicle starts there, so nobody else can get onto `l`. The rest of the
network is arbitrary. Arithmetic is exact. -/
structure Alone (v : VehId) (n : NodeId) (l : LinkId) (W : World) : Prop where
  vlt : v < W.nVeh
  orig : W.V.orig v = n
  out : W.N.outlinks n = [l]
  inn : W.N.inlinks n = []
  others : ∀ u, u < W.nVeh → u ≠ v → W.V.orig u ≠ n
  mode : W.V.mode v = .single
  dest : W.V.dest v = some (W.L.endN l)
  only : ∀ u ∈ W.L.vehs l, u = v
  exact_ : W.cfg.fl = id
  capIn : 0 ≤ W.L.capIn l
  dt : 0 < W.dt

/-- The timetable of a trip that departs in step `D` over a link of length `len`, at a distance `d` per
time step: at home until step `D`, in the queue during the next step, then moving by `d` in every step;
the trip ends in step `D + ⌈len / d⌉`. -/
structure OnSchedule (v : VehId) (l : LinkId) (D : ℤ) (d len : ℚ) (W : World) : Prop where
  home : (W.T : ℤ) ≤ D → W.V.state v = .home
  wait : (W.T : ℤ) = D + 1 → W.V.state v = .wait
  run : ∀ j : ℕ, 1 ≤ j → (W.T : ℤ) = D + 1 + j → j < len / d →
    W.V.state v = .run ∧ W.V.link v = some l ∧ W.V.x v = j * d
  done : ∀ j : ℕ, 1 ≤ j → (W.T : ℤ) = D + 1 + j → len / d ≤ j →
    W.V.state v = .ended ∧ W.V.arrTime v = D + ⌈len / d⌉

end UX
