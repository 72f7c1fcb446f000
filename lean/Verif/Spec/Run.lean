import Verif.Model.Reach

/-! # Specification vocabulary for runs: executing a number of time steps -/

namespace UX

/-- Execute `k` time steps. -/
def ticks : ℕ → World → M World
  | 0, W => .ok W
  | k + 1, W => W.tick >>= ticks k

/-- Consecutive `exec_simulation` calls. -/
def execs (W : World) (us : List World.Until) : M World :=
  us.foldlM (fun W u => (W.exec u).map (·.1)) W

/-- The two worlds agree in everything but the boarding and alighting time stamps of trip requests. -/
def SameButStamps (W W' : World) : Prop :=
  { W with H := { W.H with getTaxiTime := fun _ => none, arrivalTime := fun _ => none } } =
  { W' with H := { W'.H with getTaxiTime := fun _ => none, arrivalTime := fun _ => none } }

/-- The two worlds agree in everything but the random generator. -/
def SameButRng (W W' : World) : Prop := { W with rng := fun _ => 0 } = { W' with rng := fun _ => 0 }

end UX
