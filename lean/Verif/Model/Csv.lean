import Verif.Model.Build

/-!
# Scenarios from CSV files (`uxsim.py`, `uxsim_cpp_wrapper.py`)

The two modes have the same code on top of their own `addNode`, `addLink` and `adddemand`, which are parameters here. A
call returns the state it leaves behind, also when it raises. A file is the list of rows `csv.reader` yields (a blank
line is an empty row); opening the file is left out. `float` is a parameter; strings for infinite numbers or `nan` are
left out.
-/

namespace UX

/-- The calls that loading makes. `addDemand` without a volume uses its default -1 (uxsim.py:2022,
uxsim_cpp_wrapper.py:1002). -/
structure Api (σ : Type) where
  addNode : σ → String → ℚ → ℚ → σ × Option Err
  addLink : σ → String → String → String → ℚ → ℚ → ℚ → ℚ → σ × Option Err
  addDemand : σ → String → String → ℚ → ℚ → ℚ → Option ℚ → σ × Option Err
  setTmax : σ → ℚ → σ

namespace Csv

variable {σ : Type}

/-- `r[i]` -/
def cell (r : List String) (i : ℕ) : Except Err String :=
  match r[i]? with
  | some s => .ok s
  | none => .error .indexError

/-- `float(r[i])` -/
def number (num : String → Option ℚ) (r : List String) (i : ℕ) : Except Err ℚ :=
  match cell r i with
  | .error e => .error e
  | .ok s => match num s with
    | some q => .ok q
    | none => .error .valueError

/-- Evaluate the arguments, then make the call. -/
def withArgs {α : Type} (s : σ) (a : Except Err α) (f : α → σ × Option Err) : σ × Option Err :=
  match a with
  | .ok x => f x
  | .error e => (s, some e)

/-- One row of `generate_Nodes_from_csv` (uxsim.py:2686–2688, uxsim_cpp_wrapper.py:1446–1448). -/
def nodeRow (A : Api σ) (num : String → Option ℚ) (s : σ) (r : List String) : σ × Option Err :=
  withArgs s (cell r 1) fun c =>
    if c ≠ "x" then
      withArgs s (do pure (← cell r 0, ← number num r 1, ← number num r 2)) fun a => A.addNode s a.1 a.2.1 a.2.2
    else (s, none)

/-- One row of `generate_Links_from_csv` (uxsim.py:2701–2703, uxsim_cpp_wrapper.py:1453–1456). -/
def linkRow (A : Api σ) (num : String → Option ℚ) (s : σ) (r : List String) : σ × Option Err :=
  withArgs s (cell r 3) fun c =>
    if c ≠ "length" then
      withArgs s (do
        pure (← cell r 0, ← cell r 1, ← cell r 2, ← number num r 3, ← number num r 4, ← number num r 5, ← number num r 6))
        fun a => A.addLink s a.1 a.2.1 a.2.2.1 a.2.2.2.1 a.2.2.2.2.1 a.2.2.2.2.2.1 a.2.2.2.2.2.2
    else (s, none)

/-- `adddemand(r[0], r[1], float(r[2]), float(r[3]), float(r[4]))` -/
def demandShort (A : Api σ) (num : String → Option ℚ) (s : σ) (r : List String) : σ × Option Err :=
  withArgs s (do pure (← cell r 0, ← cell r 1, ← number num r 2, ← number num r 3, ← number num r 4))
    fun a => A.addDemand s a.1 a.2.1 a.2.2.1 a.2.2.2.1 a.2.2.2.2 none

/-- `adddemand(r[0], r[1], float(r[2]), float(r[3]), float(r[4]), float(r[5]))` -/
def demandLong (A : Api σ) (num : String → Option ℚ) (s : σ) (r : List String) : σ × Option Err :=
  withArgs s (do
    pure (← cell r 0, ← cell r 1, ← number num r 2, ← number num r 3, ← number num r 4, ← number num r 5))
    fun a => A.addDemand s a.1 a.2.1 a.2.2.1 a.2.2.2.1 a.2.2.2.2.1 (some a.2.2.2.2.2)

/-- One row of `generate_demand_from_csv` with its `try … except` (uxsim.py:2715–2720,
uxsim_cpp_wrapper.py:1461–1466). -/
def demandRow (A : Api σ) (num : String → Option ℚ) (s : σ) (r : List String) : σ × Option Err :=
  withArgs s (cell r 2) fun c =>
    if c ≠ "start_t" then
      match demandLong A num s r with
      | (s', none) => (s', none)
      | (s', some _) => demandShort A num s' r
    else (s, none)

/-- `for r in csv.reader(f)`: ends with the first exception. -/
def rows (f : σ → List String → σ × Option Err) : List (List String) → σ → σ × Option Err
  | [], s => (s, none)
  | r :: rs, s => match f s r with
    | (s', none) => rows f rs s'
    | (s', some e) => (s', some e)

/-- `load_scenario_from_csv` (uxsim.py:2653–2673, uxsim_cpp_wrapper.py:1435–1441). -/
def load (A : Api σ) (num : String → Option ℚ) (nodes links demand : List (List String)) (tmax : Option ℚ) (s : σ) :
    σ × Option Err :=
  match rows (nodeRow A num) nodes s with
  | (s1, some e) => (s1, some e)
  | (s1, none) =>
    match rows (linkRow A num) links s1 with
    | (s2, some e) => (s2, some e)
    | (s2, none) =>
      match rows (demandRow A num) demand s2 with
      | (s3, some e) => (s3, some e)
      | (s3, none) => match tmax with
        | some t => (A.setTmax s3 t, none)
        | none => (s3, none)

/-- The state after a call of the Python mode; the world model does not tell what a call that raises leaves behind. -/
def kept (W : World) : M World → World × Option Err
  | .ok W' => (W', none)
  | .error e => (W, some e)

/-- The calls of the Python mode (uxsim.py:2688, 2703, 2718, 2720, 2673). -/
def python : Api World where
  addNode W n x y := kept W (W.addNode 1 { name := n, x := x, y := y })
  addLink W n a b len u k p :=
    kept W (W.addLink { name := some n, startN := .name a, endN := .name b, length := len, u := u, jamDensity := k
                        mergePriority := p })
  addDemand W o d t0 t1 q v := kept W (W.addDemand (.name o) (.name d) t0 t1 q (v.getD (-1)))
  setTmax W t := { W with tmax := some t }

end Csv
end UX
