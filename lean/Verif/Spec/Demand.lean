import Verif.Model.Build

/-!
# What generating demand means (C24)

Stated without the loops of the model: the new vehicles are numbered consecutively, one for each
entry of a list of departure steps, and everything that was there before is untouched.
-/

namespace UX

/-- `W'` is `W` with one more vehicle from `o` to `d` for each departure step in `ts`, in order. -/
structure Generated (o d : NodeId) (ts : List ℤ) (W W' : World) : Prop where
  number : W'.nVeh = W.nVeh + ts.length
  living : W'.living = W.living ++ (List.range ts.length).map (W.nVeh + ·)
  old : ∀ i < W.nVeh, W'.V.orig i = W.V.orig i ∧ W'.V.dest i = W.V.dest i ∧
    W'.V.depTime i = W.V.depTime i ∧ W'.V.state i = W.V.state i ∧ W'.V.name i = W.V.name i
  new : ∀ j t, ts[j]? = some t → W'.V.orig (W.nVeh + j) = o ∧ W'.V.dest (W.nVeh + j) = some d ∧
    W'.V.depTime (W.nVeh + j) = t ∧ W'.V.state (W.nVeh + j) = .home ∧
    W'.V.name (W.nVeh + j) = toString (W.nVeh + j)

/-- The departure steps in `ts` lie in `[a, b)`, are in increasing order, and for every `k` up to
`b - a` the number of departures in the first `k` steps is the floor of the demand so far, a step
bringing `q` platoons. -/
structure Spread (a b : ℤ) (q : ℚ) (ts : List ℤ) : Prop where
  window : ∀ t ∈ ts, a ≤ t ∧ t < b
  sorted : ts.Pairwise (· ≤ ·)
  floor : ∀ k : ℕ, (k : ℤ) ≤ b - a →
    ((ts.filter (fun t => decide (t < a + k))).length : ℤ) = ⌊(k : ℚ) * q⌋

/-- No vehicle has a name that is the number of a vehicle still to come. -/
def NamesFree (W : World) : Prop := ∀ i, W.nVeh ≤ i → W.vehDict (toString i) = none

end UX
