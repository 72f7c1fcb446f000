import Verif.Proofs.CppSpeedRun
import Verif.Props.CppPace

/-!
# C99: speeds in the C++ engine
-/

namespace UX
open Cpp Cpp.Spec Cpp.CWorld

/-- **C99.** Every log entry of a vehicle on a link gives a position on the link and a speed of at least 0 and at
most the speed limit of the link or, if the vehicle has just come from another link, of that link. -/
theorem C99_log {W W' : CWorld} (h : SteadyReach W) (ro : Roads W) (hn : 0 ≤ W.g.deltaN) (hdt : 0 < W.g.deltaT)
    {v : ℕ} (hv : v < W.g.nVehs) (hs : (W.veh v).state = .home) (g : Goes W W') :
    Driven W' none (W'.veh v).log := by
  obtain ⟨p, k⟩ := h.kin (by rw [ro.fl]; exact idOK) hn
  exact (g.tame h.toClean.toReach p k ro hdt hv hs).2.2.2.spd.log

/-- **C99.** Between time steps no vehicle is faster than the speed limit of its link, and no travel time
that `set_travel_time` has recorded is less than that of the free flow. -/
theorem C99_slow {W W' : CWorld} (h : SteadyReach W) (ro : Roads W) (hn : 0 ≤ W.g.deltaN) (hdt : 0 < W.g.deltaT)
    (hs : ∀ v, v < W.g.nVehs → (W.veh v).state = .home) (ht : W.g.timestep = 0) (g : Goes W W') : Slow W' := by
  obtain ⟨p, k⟩ := h.kin (by rw [ro.fl]; exact idOK) hn
  obtain ⟨a, _, _, d⟩ := g.allTame h.toClean.toReach p k ro hdt hs ht
  exact d.slow a.rest.inv

namespace Cpp

/-- Arguments of a link of length `len` with speed limit `u`. -/
def cppFastArgs (len u : ℚ) : LinkArgs :=
  { cppTwoArgs 1 with len := len, vmax := u }

/-- A link of 250 m with a limit of 20 m/s leads to one of 200 m with a limit of 10 m/s. -/
def cppFast0 : CWorld :=
  let W0 := CWorld.empty id 200 5 1 10 (1/2) 0 true false false false true 1
  let W1 := (((W0.addNodeWith (0, 0) [0] 0 (-1) 0 (fun _ => 0)).addNodeWith (0, 0) [0] 0 (-1) 0
    (fun _ => 0))).addNodeWith (0, 0) [0] 0 (-1) 0 (fun _ => 0)
  let W2 := (W1.addLink 0 1 (cppFastArgs 250 20)).addLink 1 2 (cppFastArgs 200 10)
  ((W2.addVehicle 0 0 2 []).addVehicle 0 0 2 []).initAdj

def cppFast (k : ℕ) : CWorld := (cppFast0.mainLoop (fun _ W => W.seqSched) k).1

theorem cppFast0_steady : SteadyReach cppFast0 := by
  have h0 : SteadyReach (CWorld.empty id 200 5 1 10 (1/2) 0 true false false false true 1) :=
    SteadyReach.empty id 200 5 1 10 (1/2) 0 true false false false true 1
  have h1 := steady_node (q := (0, 0)) h0 (ints := [0]) (off := 0) (cap := -1) (lanes := 0)
    (rng := fun _ => 0) (fuel := 1) rfl (by decide +kernel)
  have h2 := steady_node (q := (0, 0)) h1 (ints := [0]) (off := 0) (cap := -1) (lanes := 0)
    (rng := fun _ => 0) (fuel := 1) rfl (by decide +kernel)
  have h3 := steady_node (q := (0, 0)) h2 (ints := [0]) (off := 0) (cap := -1) (lanes := 0)
    (rng := fun _ => 0) (fuel := 1) rfl (by decide +kernel)
  refine steady_init ?_ (by decide +kernel)
  refine steady_vehicle ?_ (by decide +kernel) (by decide +kernel) (by decide +kernel)
  refine steady_vehicle ?_ (by decide +kernel) (by decide +kernel) (by decide +kernel)
  refine steady_link ?_ rfl (by decide +kernel) (by decide +kernel) (by decide +kernel) (by decide +kernel)
  refine steady_link ?_ rfl (by decide +kernel) (by decide +kernel) (by decide +kernel) (by decide +kernel)
  exact h3

theorem cppFast_run : cppFast0.mainLoop (fun _ W => W.seqSched) 12 = (cppFast 12, none) :=
  Prod.ext rfl (by decide +kernel)

theorem cppFast_run5 : cppFast0.mainLoop (fun _ W => W.seqSched) 5 = (cppFast 5, none) :=
  Prod.ext rfl (by decide +kernel)

theorem cppFast_roads : Roads cppFast0 := ⟨rfl, by decide +kernel, by decide +kernel⟩

end Cpp

/-- Two vehicles: the second one is held back by the first, and both slow down on the second link. -/
theorem C99_case : SteadyReach cppFast0 ∧ Roads cppFast0 ∧ 0 ≤ cppFast0.g.deltaN ∧ 0 < cppFast0.g.deltaT ∧
    cppFast0.g.nVehs = 2 ∧ (∀ v, v < cppFast0.g.nVehs → (cppFast0.veh v).state = .home) ∧ cppFast0.g.timestep = 0 ∧
    Goes cppFast0 (cppFast 12) ∧ Goes cppFast0 (cppFast 5) ∧
    ((cppFast 12).veh 1).log.map (fun e => (e.link, e.v)) = [(none, -1), (none, -1), (some 0, 20), (some 0, 15),
      (some 0, 20), (some 1, 15), (some 1, 10), (some 1, 10), (some 1, 10), (none, -1)] ∧
    ((cppFast 5).link 0).vehs = [1] ∧ ((cppFast 5).veh 1).v = 15 ∧ ((cppFast 5).link 0).vmax = 20 ∧
    ((cppFast 5).link 0).len / ((cppFast 5).link 0).vmax = 25 / 2 ∧
    (List.range 5).map ((cppFast 5).link 0).ttInst = [25 / 2, 25 / 2, 25 / 2, 100 / 7, 50 / 3] := by
  refine ⟨cppFast0_steady, cppFast_roads, by decide +kernel, by decide +kernel, by decide +kernel, by decide +kernel,
    by decide +kernel, .run .none _ seqSched_valid 12 cppFast_run, .run .none _ seqSched_valid 5 cppFast_run5,
    by decide +kernel, by decide +kernel, by decide +kernel, by decide +kernel, by decide +kernel, by decide +kernel⟩

/-- **C99**, what does not hold: the speed in a log entry can be above the speed limit of its own link. The vehicle
comes from a link with a limit of 20 m/s and is logged with 15 m/s on a link with a limit of 10 m/s. -/
theorem C99_own_limit_false : ¬ ∀ W W' : CWorld, SteadyReach W → Roads W → 0 ≤ W.g.deltaN → 0 < W.g.deltaT → ∀ v,
    v < W.g.nVehs → (W.veh v).state = .home → Goes W W' → ∀ e ∈ (W'.veh v).log, ∀ l, e.link = some l →
      e.v ≤ (W'.link l).vmax := by
  intro h
  have hm : ((cppFast 12).veh 0).log[4]? = some ⟨some 1, 25, 15, 0, -1⟩ := by decide +kernel
  have := h cppFast0 (cppFast 12) cppFast0_steady cppFast_roads (by decide +kernel) (by decide +kernel) 0
    (by decide +kernel) (by decide +kernel) (.run .none _ seqSched_valid 12 cppFast_run) _
    (List.mem_of_getElem? hm) 1 rfl
  exact absurd this (by decide +kernel)

end UX
