import Verif.Model.State
import Mathlib.Data.Rat.Floor

/-! # Trajectories and traffic states: what they should be -/

namespace UX

/-- Length of the part of `[a, b]` inside `[c, d]`. -/
def overlap (a b c d : ℚ) : ℚ := max 0 (min b d - max a c)

/-- Sum of `f` over consecutive points. -/
def alongPairs (f : ℚ × ℚ → ℚ × ℚ → ℚ) : List (ℚ × ℚ) → ℚ
  | p :: q :: r => f p q + alongPairs f (q :: r)
  | _ => 0

/-- Distance driven in space cell `j` on the segment from `p` to `q` (points are `(t, x)`), if the segment
starts in time cell `i`. -/
def segDist (dt dx : ℚ) (i j : ℕ) (p q : ℚ × ℚ) : ℚ :=
  if i * dt ≤ p.1 ∧ p.1 < (i + 1) * dt then overlap p.2 q.2 (j * dx) ((j + 1) * dx) else 0

/-- Time spent in space cell `j` on that segment: at constant speed, or all of it in the cell of `p` if the
vehicle stands. -/
def segTime (dt dx : ℚ) (i j : ℕ) (p q : ℚ × ℚ) : ℚ :=
  if i * dt ≤ p.1 ∧ p.1 < (i + 1) * dt then
    if p.2 < q.2 then overlap p.2 q.2 (j * dx) ((j + 1) * dx) * (q.1 - p.1) / (q.2 - p.2)
    else if j * dx ≤ p.2 ∧ p.2 < (j + 1) * dx then q.1 - p.1 else 0
  else 0

/-- A trajectory on a link: inside the link, never backward, never faster than `u`. -/
structure GoodTraj (u len : ℚ) (ps : List (ℚ × ℚ)) : Prop where
  pt : ∀ p ∈ ps, 0 ≤ p.1 ∧ 0 ≤ p.2 ∧ p.2 ≤ len
  step : ps.IsChain fun p q => p.1 ≤ q.1 ∧ p.2 ≤ q.2 ∧ q.2 - p.2 ≤ u * (q.1 - p.1)

/-- Maximal runs of consecutive log rows on link `l`. Rows, runs and points are newest first, as the log is
stored; the rows given are those on some link. -/
def runs (l : LinkId) : List LogRow → List (List (ℚ × ℚ))
  | [] => []
  | [r] => if r.link = some l then [[(r.t, r.x)]] else []
  | r :: r' :: rest =>
    if r.link = some l then
      match runs l (r' :: rest) with
      | [] => [[(r.t, r.x)]]
      | run :: more =>
        if r'.link = some l then ((r.t, r.x) :: run) :: more else [(r.t, r.x)] :: run :: more
    else runs l (r' :: rest)

/-- The runs of vehicle `v` on link `l`, oldest first. -/
def World.visits (W : World) (l : LinkId) (v : VehId) : List (List (ℚ × ℚ)) :=
  ((runs l ((W.V.log v).filter (·.link.isSome))).map List.reverse).reverse

/-- A run completed at both ends of a link of length `len` by driving at speed `u`, unless the missing
part takes at most a hundredth of a time step, or (at the end) more than a time step. -/
def completed (u len dt : ℚ) (ps : List (ℚ × ℚ)) : List (ℚ × ℚ) :=
  (match ps.head? with
    | some p => if dt / 100 < p.2 / u then [(p.1 - p.2 / u, 0)] else []
    | none => []) ++ ps ++
  match ps.getLast? with
    | some p => if p.2 < len ∧ (len - p.2) / u ≤ dt ∧ dt / 100 < (len - p.2) / u then
        [(p.1 + (len - p.2) / u, len)] else []
    | none => []

/-- Distance between the first and the last point. -/
def covered : List (ℚ × ℚ) → ℚ
  | [] => 0
  | p :: ps => ((p :: ps).getLast (List.cons_ne_nil _ _)).2 - p.2

/-- Sum over all cells of an `nt × nx` matrix. -/
def cellSum (nt nx : ℕ) (f : ℕ → ℕ → ℚ) : ℚ :=
  ((List.range nt).map fun i => ((List.range nx).map fun j => f i j).sum).sum

/-- The last row of vehicle `v` on a link is not on `l`. -/
def World.hasLeft (W : World) (l : LinkId) (v : VehId) : Prop :=
  ∀ r, ((W.V.log v).filter (·.link.isSome)).head? = some r → r.link ≠ some l

end UX
