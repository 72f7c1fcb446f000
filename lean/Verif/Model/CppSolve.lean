import Verif.Model.CppDta

/-!
# The solvers `CppSolverDUE` and `CppSolverDSO_D2D` (`uxsim/DTAsolvers/DTAsolvers_cpp_adapter.py`)

The loop over the days. `build i` is the world that the `i`-th call of `func_World` and `_lightweight_finalize` give,
before routes are enforced; `avg W` stands for `analyzer.average_travel_time` (analyzer.py:98–118). Enumeration of
routes, names of vehicles and links, printing, and the tables of results are not modelled.
-/

namespace UX.Cpp

/-- Exceptions of `solve`: one of the simulation, comparison with `None`, first entry of an empty list, division by
the number of vehicles. -/
inductive SErr
  | sim (e : CErr) | typeError | indexError | zeroDivision

/-- A day: the world after the simulation and the result of the swap. -/
structure Day where
  world : CWorld
  rows : List CWorld.SwapRow

/-- `s.W_intermid_solution` and the local variable `best_avg_tt` (DTAsolvers_cpp_adapter.py:375–378, 425). -/
structure Best where
  inter : Option CWorld
  avg : Option ℚ

namespace CWorld

/-- Enforcement and simulation of a day (DTAsolvers_cpp_adapter.py:308–320, 428–442). -/
def playDay (V : CWorld) (sched : ℕ → CWorld → Sched) (prev : Option (List (List ℕ))) : Except SErr CWorld :=
  let V' := match prev with
    | none => V
    | some rs => V.batchEnforce rs
  match V'.mainLoop sched V'.g.totalSteps with
  | (W, none) => .ok W
  | (_, some e) => .error (.sim e)

/-- `unfinished_trips == 0` (DTAsolvers_cpp_adapter.py:445, 451; analyzer.py:160–173). -/
def allDone (W : CWorld) : Bool := (List.range W.g.nVehs).all (fun v => decide ((W.veh v).travelTime ≠ -1))

/-- The update of `s.W_intermid_solution` in `CppSolverDSO_D2D` (DTAsolvers_cpp_adapter.py:451–457). -/
def keepBest (avg : CWorld → ℚ) (b : Best) (W : CWorld) : Except SErr Best :=
  if W.allDone then
    match b.inter, b.avg with
    | none, _ => .ok ⟨some W, some (avg W)⟩
    | some _, none => .error .typeError
    | some _, some q => if avg W < q then .ok ⟨some W, some (avg W)⟩ else .ok b
  else .ok b

/-- The update of `s.W_intermid_solution` in `CppSolverDUE` (DTAsolvers_cpp_adapter.py:329–330). -/
def keepLast (b : Best) (W : CWorld) : Except SErr Best := .ok ⟨some W, b.avg⟩

/-- The loop over the days (DTAsolvers_cpp_adapter.py:307–355, 428–483): days left, number of the day, routes of the
day before. -/
def dayLoop (build : ℕ → CWorld) (sched : ℕ → ℕ → CWorld → Sched) (swap : ℕ → CWorld → List SwapRow)
    (keep : Best → CWorld → Except SErr Best) :
    ℕ → ℕ → Option (List (List ℕ)) → Best → Except SErr (List Day × Best)
  | 0, _, _, b => .ok ([], b)
  | k + 1, i, prev, b =>
    match (build i).playDay (sched i) prev with
    | .error e => .error e
    | .ok W =>
      match keep b W with
      | .error e => .error e
      | .ok b' =>
        if W.g.nVehs = 0 then .error .zeroDivision
        else match dayLoop build sched swap keep k (i + 1) (some ((swap i W).map SwapRow.spec)) b' with
          | .error e => .error e
          | .ok (ds, b'') => .ok (⟨W, swap i W⟩ :: ds, b'')

/-- `CppSolverDUE.solve` (DTAsolvers_cpp_adapter.py:260–365) with `n = max_iter`: the days and `W_sol`. -/
def solveDue (build : ℕ → CWorld) (sched : ℕ → ℕ → CWorld → Sched) (sets : ℕ → ℕ → Option (List (List ℕ)))
    (p : ℚ) (ext : Bool) (u : ℕ → ℕ → ℚ) (n : ℕ) : Except SErr (List Day × Option CWorld) :=
  match dayLoop build sched (fun i W => W.swapDue sets p ext (u i)) keepLast n 0 none ⟨none, none⟩ with
  | .error e => .error e
  | .ok (ds, _) => match ds.getLast? with
    | none => .error .indexError
    | some d => .ok (ds, some d.world)

/-- `CppSolverDSO_D2D.solve` (DTAsolvers_cpp_adapter.py:380–490); `inter` is `s.W_intermid_solution` before the call
and, in the result, `W_sol`, which is also its value after the call. -/
def solveDso (build : ℕ → CWorld) (sched : ℕ → ℕ → CWorld → Sched) (sets : ℕ → ℕ → Option (List (List ℕ)))
    (p : ℚ) (num : ℤ) (ext : Bool) (perm : ℕ → List ℕ) (u : ℕ → ℕ → ℚ) (avg : CWorld → ℚ) (inter : Option CWorld)
    (n : ℕ) : Except SErr (List Day × Option CWorld) :=
  match dayLoop build sched (fun i W => W.swapDso sets p num ext (perm i) (u i)) (keepBest avg) n 0 none ⟨inter, none⟩ with
  | .error e => .error e
  | .ok (ds, b) => if ds = [] then .error .indexError else .ok (ds, b.inter)

end CWorld
end UX.Cpp
