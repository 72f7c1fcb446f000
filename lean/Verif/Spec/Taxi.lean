import Verif.Model.Reach

/-! # Specification vocabulary for trip requests -/

namespace UX

/-- A vacant taxi: a running vehicle of mode taxi without destination. -/
def Vacant (W : World) (v : VehId) : Prop :=
  v < W.nVeh ∧ W.V.mode v = .taxi ∧ W.V.state v = .run ∧ W.V.dest v = none

/-- The request has been assigned to `v` and its passenger has not arrived yet. -/
def Serving (W : World) (v : VehId) (r : ReqId) : Prop :=
  W.H.taxi r = some v ∧ W.H.arrivalTime r = none

/-- A sequence of assignments `(request, taxi)`, each of a request that is due to a taxi that is vacant
at that moment. -/
inductive Assigns : List (ReqId × VehId) → World → World → Prop
  | nil {W} : Assigns [] W W
  | cons {r v as W W1 W'} : r ∈ W.H.pending → W.H.departTime r ≤ W.time → Vacant W v →
      W.assignTaxi v r = .ok W1 → Assigns as W1 W' → Assigns ((r, v) :: as) W W'

/-- Histories in which taxis are assigned only by the handlers that come with the package, and origin and
destination of every request differ. -/
inductive Served : World → Prop
  | new {cfg tmax rng} : Served (World.new cfg tmax rng)
  | next {W W'} : Served W → ApiStep W W' → (∀ r, W.H.taxi r = none → W'.H.taxi r = none) →
      (∀ r, r < W'.H.nReq → W'.H.orig r ≠ W'.H.dest r) → Served W'
  | random {W W' rnd} : Served W → W.assignRandom rnd = .ok W' → Served W'
  | nearest {W W' rad2} : Served W → W.assignNearest rad2 = .ok W' → Served W'

/-- A step sequence. -/
inductive Later : World → World → Prop
  | refl {W} : Later W W
  | next {W W1 W'} : Later W W1 → ApiStep W1 W' → Later W W'

end UX
