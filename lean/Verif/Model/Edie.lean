import Verif.Model.Analyzer

/-!
# Trajectories and Edie's traffic states (analyzer.py:205–330)

Arithmetic is exact. Python's float `//` and `%` are `⌊a / b⌋` and `a - b * ⌊a / b⌋`. `edie_dt`, `edie_dx`
are parameters (uxsim.py:614–631 sets `edie_dx` to `length / 10` or `u * DELTAT`). The colours and lanes
of trajectories are left out.
-/

namespace UX

/-- One entry of `link.names`, `link.tss`, `link.xss`: points `(t, x)`. -/
structure Traj where
  name : String
  pts : List (ℚ × ℚ)
  deriving DecidableEq, Repr

/-- Python's `a % b` for floats. -/
def pyMod (a b : ℚ) : ℚ := a - b * ⌊a / b⌋

/-- Position of index `i` in a list of `n` entries; negative indices count from the end. -/
def pyIdx (n : ℕ) (i : ℤ) : M ℕ :=
  if 0 ≤ i ∧ i < n then .ok i.toNat
  else if i < 0 ∧ 0 ≤ n + i then .ok (n + i).toNat
  else .error .indexError

/-- The lists of trajectories of all links while the logs are read, newest trajectory and newest point
first, and the link `l_old` of the last row. -/
structure TrajAcc where
  old : Option LinkId
  trajs : LinkId → List Traj

/-- One log row (analyzer.py:220–231). -/
def trajRow (name : String) (S : TrajAcc) (r : LogRow) : M TrajAcc :=
  match r.link with
  | none => .ok S
  | some l =>
    let ts := if S.old ≠ some l then ⟨name, []⟩ :: S.trajs l else S.trajs l
    match ts with
    | [] => .error .indexError
    | τ :: rest => .ok ⟨some l, upd S.trajs l ({ τ with pts := (r.t, r.x) :: τ.pts } :: rest)⟩

/-- One vehicle (analyzer.py:217–231). -/
def trajVeh (W : World) (S : TrajAcc) (v : VehId) : M TrajAcc :=
  (W.V.log v).reverse.foldlM (trajRow (W.V.name v)) { S with old := none }

/-- Extension of a trajectory to the start of the link (analyzer.py:237–241). -/
def extrapStart (u dt : ℚ) (ps : List (ℚ × ℚ)) : List (ℚ × ℚ) :=
  match ps with
  | [] => []
  | (t, x) :: _ => if x ≠ 0 ∧ x / u > dt * (1 / 100) then (t - x / u, 0) :: ps else ps

/-- Extension of a trajectory to the end of the link (analyzer.py:242–246). -/
def extrapEnd (u len dt : ℚ) (ps : List (ℚ × ℚ)) : List (ℚ × ℚ) :=
  match ps.getLast? with
  | none => ps
  | some (t, x) =>
    if (len - u * dt ≤ x ∧ x < len) ∧ (len - x) / u > dt * (1 / 100) then ps ++ [(t + (len - x) / u, len)]
    else ps

namespace World

/-- The trajectories read from the logs (analyzer.py:217–231). -/
def rawTrajs (W : World) : M (LinkId → List Traj) := do
  let S ← (List.range W.nVeh).foldlM (trajVeh W) ⟨none, fun _ => []⟩
  return fun l => (S.trajs l).reverse.map fun τ => { τ with pts := τ.pts.reverse }

/-- `compute_accurate_traj` without its flag (analyzer.py:205–246). -/
def accurateTrajs (W : World) : M (LinkId → List Traj) := do
  let ts ← W.rawTrajs
  return fun l => (ts l).map fun τ =>
    { τ with pts := extrapEnd (W.L.u l) (W.L.length l) W.dt (extrapStart (W.L.u l) W.dt τ.pts) }

end World

/-- The matrices `tn`, `dn` of dictionaries (analyzer.py:266–267). -/
structure Cells where
  tn : ℕ → ℕ → DDict String ℚ
  dn : ℕ → ℕ → DDict String ℚ

def Cells.empty : Cells := ⟨fun _ _ => .empty 0, fun _ _ => .empty 0⟩

/-- `dn[i][j][name] += d; tn[i][j][name] += t` in matrices with `nt` rows and `nx` columns. -/
def Cells.add (nt nx : ℕ) (name : String) (C : Cells) (i j : ℤ) (d t : ℚ) : M Cells := do
  let i ← pyIdx nt i
  let j ← pyIdx nx j
  return {
    tn := upd C.tn i (upd (C.tn i) j ((C.tn i j).modify name (· + t)))
    dn := upd C.dn i (upd (C.dn i) j ((C.dn i j).modify name (· + d))) }

/-- Loop body over the cells crossed by a segment (analyzer.py:304–314). -/
def Cells.cross (nt nx : ℕ) (dx : ℚ) (name : String) (v0 xl0 xl1 : ℚ) (tt xx : ℤ) (jj : ℕ) (C : Cells)
    (j : ℕ) : M Cells :=
  if xx + j < nx then
    if j = 0 then C.add nt nx name tt (xx + j) xl0 (xl0 / v0)
    else if j + 1 = jj then C.add nt nx name tt (xx + j) xl1 (xl1 / v0)
    else C.add nt nx name tt (xx + j) dx (dx / v0)
  else .ok C

/-- One segment `(t0, x0)`–`(t1, x1)` of a trajectory (analyzer.py:275–318). -/
def Cells.segment (nt nx : ℕ) (dt dx : ℚ) (name : String) (C : Cells) (p q : ℚ × ℚ) : M Cells :=
  let v0 := if q.1 - p.1 ≠ 0 then (q.2 - p.2) / (q.1 - p.1) else 0
  let tt := ⌊p.1 / dt⌋
  let xx := ⌊p.2 / dx⌋
  if 0 < v0 then
    if tt < nt ∧ xx < nx then
      if xx = ⌊q.2 / dx⌋ then C.add nt nx name tt xx (q.2 - p.2) (q.1 - p.1)
      else
        let jj := (⌊q.2 / dx⌋ - xx + 1).toNat
        (List.range jj).foldlM (Cells.cross nt nx dx name v0 (dx - pyMod p.2 dx) (pyMod q.2 dx) tt xx jj) C
    else .ok C
  else
    if tt < nt ∧ xx < nx then C.add nt nx name tt xx 0 (q.1 - p.1) else .ok C

/-- The segments of one trajectory in order (analyzer.py:274). -/
def Cells.traj (nt nx : ℕ) (dt dx : ℚ) (C : Cells) (τ : Traj) : M Cells :=
  (τ.pts.zip τ.pts.tail).foldlM (fun C pq => C.segment nt nx dt dx τ.name pq.1 pq.2) C

/-- `sum(list(d.values()) * DELTAN)` (analyzer.py:322–325): the list is repeated, not scaled. -/
def sumValues (dn : ℕ) (d : DDict String ℚ) : ℚ := ((List.replicate dn (d.keys.map d.val)).flatten).sum

/-- `k_mat`, `q_mat`, `v_mat` and the shape. -/
structure EdieMats where
  nt : ℕ
  nx : ℕ
  tn : ℕ → ℕ → ℚ
  dn : ℕ → ℕ → ℚ
  k : ℕ → ℕ → ℚ
  q : ℕ → ℕ → ℚ
  v : ℕ → ℕ → ℚ

/-- `compute_edie_state` for one link with given trajectories (analyzer.py:259–330). Entries outside
`nt × nx` have no meaning. `0 / 0` is `nan` and replaced by `u`; a non-zero number over 0 does not occur
(`C56_bounds`). -/
def edieMats (u len tmax dt dx : ℚ) (deltan : ℕ) (ts : List Traj) : M EdieMats := do
  let nt := (pyInt (tmax / dt)).toNat
  let nx := (pyInt (len / dx)).toNat
  let C ← ts.foldlM (Cells.traj nt nx dt dx) Cells.empty
  let tn := fun i j => sumValues deltan (C.tn i j)
  let dn := fun i j => sumValues deltan (C.dn i j)
  let k := fun i j => tn i j / dt / dx
  let q := fun i j => dn i j / dt / dx
  return { nt := nt, nx := nx, tn := tn, dn := dn, k := k, q := q
           v := fun i j => if k i j = 0 ∧ q i j = 0 then u else q i j / k i j }

/-- `compute_edie_state` for link `l` with `TMAX = W.tmax` (analyzer.py:257–330). -/
def World.edieState (W : World) (tmax edt edx : ℚ) (l : LinkId) : M EdieMats := do
  let ts ← W.accurateTrajs
  edieMats (W.L.u l) (W.L.length l) tmax edt edx W.dn (ts l)

end UX
