import Verif.Model.CppLog
import Verif.Spec.CppFlow

/-!
# Specification: vehicle logs of the C++ engine
-/

namespace UX.Cpp.Spec
open CWorld

/-- The log as it can be read: time and state of each entry. -/
def readLog (W : CWorld) (v : ℕ) : List (ℚ × VState) :=
  (List.range (W.veh v).log.length).map (fun i => (W.logTAt v i, W.logStateAt v i))

/-- Time step and state in every time step of a life: at home at time step `f`, then `w` time steps
waiting, then `r` time steps on the road. -/
def life (f w r : ℕ) : List (ℕ × VState) :=
  (f, VState.home) :: ((List.range w).map (fun i => (f + 1 + i, VState.wait)) ++
    (List.range r).map (fun i => (f + 1 + w + i, VState.run)))

/-- The clock of a world. -/
def clockAt (W : CWorld) (s : ℕ) : ℚ := W.g.fl (s * W.g.deltaT)

/-- The log, as read, is the list `xs` of time steps and states. -/
def Reads (W : CWorld) (v : ℕ) (xs : List (ℕ × VState)) : Prop :=
  readLog W v = xs.map (fun p => (clockAt W p.1, p.2))

/-- What the log of vehicle `v` says between two time steps. It starts with the time step of departure and
has one entry for each time step since; the end of a trip is an additional entry in the time step of the
last entry or in the next one. -/
def TellsLife (W : CWorld) (v : ℕ) : Prop :=
  match (W.veh v).state with
  | .home => Reads W v []
  | .wait => ∃ f w, Reads W v (life f w 0) ∧ f + 1 + w = W.g.timestep ∧ (W.veh v).depTime ≤ clockAt W f
  | .run => ∃ f w r, Reads W v (life f w r) ∧ 0 < r ∧ f + 1 + w + r = W.g.timestep ∧
      (W.veh v).depTime ≤ clockAt W f
  | s => ∃ f w r t, Reads W v (life f w r ++ [(t, s)]) ∧ (t = f + w + r ∨ t = f + 1 + w + r) ∧
      t < W.g.timestep ∧ (W.veh v).depTime ≤ clockAt W f

/-- Entries name a link exactly in the time steps on the road. -/
def LinksWhenRunning (W : CWorld) (v : ℕ) : Prop :=
  ∀ i e, (W.veh v).log[i]? = some e → ((∃ l, e.link = some l) ↔ W.logStateAt v i = .run)

end UX.Cpp.Spec
