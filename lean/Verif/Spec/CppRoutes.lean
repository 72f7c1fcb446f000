import Verif.Model.CppSim

/-!
# Specification: shortest walks

A walk from `s`, one edge at a time, with the cost added up from the start and rounded after each
addition. `fl = id` gives the exact length.
-/

namespace UX.Cpp.Spec

/-- An edge of weight `w`: a positive finite entry of the matrix. -/
def Edge (n : ℕ) (adj : ℕ → ℕ → Option ℚ) (u v : ℕ) (w : ℚ) : Prop :=
  v < n ∧ adj u v = some w ∧ 0 < w

/-- `Walk … s v c`: there is a walk from `s` to `v` of cost `c`. -/
inductive Walk (fl : ℚ → ℚ) (n : ℕ) (adj : ℕ → ℕ → Option ℚ) (s : ℕ) : ℕ → ℚ → Prop
  | nil : Walk fl n adj s s 0
  | snoc {u v c w} : Walk fl n adj s u c → Edge n adj u v w → Walk fl n adj s v (fl (c + w))

/-- A walk from `s` whose first edge goes to `h`. -/
inductive WalkVia (fl : ℚ → ℚ) (n : ℕ) (adj : ℕ → ℕ → Option ℚ) (s h : ℕ) : ℕ → ℚ → Prop
  | one {w} : Edge n adj s h w → WalkVia fl n adj s h h (fl (0 + w))
  | snoc {u v c w} : WalkVia fl n adj s h u c → Edge n adj u v w →
      WalkVia fl n adj s h v (fl (c + w))

/-- `d` is the least cost of a walk from `s` to `v`. -/
def IsDist (fl : ℚ → ℚ) (n : ℕ) (adj : ℕ → ℕ → Option ℚ) (s v : ℕ) (d : ℚ) : Prop :=
  Walk fl n adj s v d ∧ ∀ c, Walk fl n adj s v c → d ≤ c

/-- What link `l` costs in time step `W.g.timestep`, apart from the noise: its recorded travel time (that of
free flow if none is recorded) and its toll (of the time step if there is a time series that long). -/
structure LinkPrice (W : CWorld) (l : ℕ) (tt toll : ℚ) : Prop where
  recorded : 0 < (W.link l).ttInst W.g.timestep → tt = (W.link l).ttInst W.g.timestep
  free : (W.link l).ttInst W.g.timestep ≤ 0 → tt = (W.link l).len / (W.link l).vmax
  series : ∀ q, (W.link l).toll[W.g.timestep]? = some q → toll = q
  fixed : (W.link l).toll.length ≤ W.g.timestep → toll = (W.link l).penalty

/-- The travel time of link `l` that the speeds of the vehicles on it give: length by mean speed (by a
hundredth of the free-flow speed if all stand); free flow on an empty link. -/
def speedTime (W : CWorld) (l : ℕ) : ℚ :=
  let vs := (W.link l).vehs.map (fun v => (W.veh v).v)
  if vs = [] then (W.link l).len / (W.link l).vmax
  else if 0 < vs.sum then (W.link l).len / (vs.sum / vs.length)
  else (W.link l).len / ((W.link l).vmax / 100)

end UX.Cpp.Spec
