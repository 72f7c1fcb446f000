import Verif.Model.CppWrap
import Verif.Spec.CppLog
import Verif.Spec.CppLife

/-!
# Specification: the Python side of the C++ engine (C108–C110)
-/

namespace UX.Cpp.Spec

/-- The dict `d` holds exactly the vehicles `i` with `P i`, each once and under its own name; `names` are the names of
the vehicles in the order of their creation. -/
structure Holds (names : List String) (P : ℕ → Prop) (d : List (String × ℕ)) : Prop where
  nodup : d.Nodup
  mem : ∀ s i, (s, i) ∈ d ↔ names[i]? = some s ∧ P i

/-- Different vehicles have different names. -/
def Distinct (names : List String) : Prop :=
  ∀ (i j : ℕ) (s : String), names[i]? = some s → names[j]? = some s → i = j

/-- A name that is not a number. -/
def NotNumber (s : String) : Prop := ∀ k : ℕ, s ≠ toString k

/-- With step width `dt` the call `u` at time step `T` asks for `k` time steps: `until_t` and `duration_t` include the
time step that begins at the given time, `duration_t2` does not. -/
def Asks (dt : ℚ) (T tsize k : ℕ) : Wrap.Until → Prop
  | .toEnd => k = tsize - T
  | .untilT t => ((T + k : ℕ) : ℚ) ≤ t / dt + 1 ∧ t / dt < ((T + k : ℕ) : ℚ)
  | .duration d => (k : ℚ) ≤ d / dt + 1 ∧ d / dt < k
  | .duration2 d => (k : ℚ) ≤ d / dt ∧ d / dt < k + 1

/-- `n` calls that all return 0. -/
inductive Repeats (sched : ℕ → CWorld → CWorld.Sched) (u : Wrap.Until) : ℕ → Wrap → Wrap → Prop
  | zero (W : Wrap) : Repeats sched u 0 W W
  | succ {n : ℕ} {W V V' : Wrap} : Repeats sched u n W V → V.exec sched u = .ok (V', 0) → Repeats sched u (n + 1) W V'

/-- The same argument for the Python engine. -/
def asPython : Wrap.Until → World.Until
  | .toEnd => .toEnd
  | .untilT t => .untilT t
  | .duration d => .duration d
  | .duration2 d => .duration2 d

/-- Time step and state in every time step from the start of the simulation: at home up to time step `f`, then `w` time
steps waiting, then `r` time steps on the road. -/
def wholeLife (f w r : ℕ) : List (ℕ × VState) :=
  (List.range (f + 1)).map (fun i => (i, VState.home)) ++
    ((List.range w).map (fun i => (f + 1 + i, VState.wait)) ++
      (List.range r).map (fun i => (f + 1 + w + i, VState.run)))

/-- The log `L` shows time and state of the list `xs` of time steps and states. -/
def Shows (c : CWorld) (L : WLog) (xs : List (ℕ × VState)) : Prop :=
  L.rows.map (fun e => (e.t, e.state)) = xs.map (fun p => (((p.1 : ℕ) : ℚ) * c.g.deltaT, p.2))

/-- What the log of vehicle `v` shows of its life: one entry for each time step since the start of the simulation, and
one for the end of the trip. Of a vehicle that has not departed it shows nothing. -/
def ShowsLife (c : CWorld) (v : ℕ) (L : WLog) : Prop :=
  match (c.veh v).state with
  | .home => L.rows = []
  | .wait => ∃ f w, Shows c L (wholeLife f w 0) ∧ f + 1 + w = c.g.timestep
  | .run => ∃ f w r, Shows c L (wholeLife f w r) ∧ 0 < r ∧ f + 1 + w + r = c.g.timestep
  | s => ∃ f w r t, Shows c L (wholeLife f w r ++ [(t, s)]) ∧ (t = f + w + r ∨ t = f + 1 + w + r) ∧ t < c.g.timestep

/-- Two consecutive entries of a log of vehicle `v` as Python sees it: a trip starts at the beginning of a link that
leaves the origin, and the speed is the distance driven since the entry before by the time step, on one link or from the
end of one to the beginning of one that continues it. -/
def Moves (c : CWorld) (v : ℕ) (e e' : WRow) : Prop :=
  match e.link, e'.link with
  | _, none => True
  | none, some m => m < c.g.nLinks ∧ (c.link m).src = (c.veh v).orig ∧ e'.x = 0
  | some l, some m => l < c.g.nLinks ∧ m < c.g.nLinks ∧
      ((l = m ∧ e'.v * c.g.deltaT = e'.x - e.x) ∨
        ((c.link l).dst = (c.link m).src ∧
          |e'.v * c.g.deltaT - ((c.link l).len - e.x + e'.x)| < 1 / 1000000000))

end UX.Cpp.Spec
