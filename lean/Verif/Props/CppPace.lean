import Verif.Proofs.CppPaceRun
import Verif.Props.CppKin
import Verif.Props.CppDta

/-!
# C98: no vehicle of the C++ engine is faster than the free flow
-/

namespace UX
open Cpp Cpp.Spec Cpp.CWorld

/-- **C98.** The travel time of a vehicle that has arrived is not less than the sum of the free-flow times of
the links of the route it has travelled. -/
theorem C98_arrived {W W' : CWorld} (h : SteadyReach W) (ro : Roads W) (hn : 0 ≤ W.g.deltaN) {v : ℕ}
    (hv : v < W.g.nVehs) (hs : (W.veh v).state = .home) (g : Goes W W') (he : (W'.veh v).state = .ended) :
    freeTimes W' (W'.traveledRoute v).1 ≤ (W'.veh v).travelTime := by
  obtain ⟨p, k⟩ := h.kin (by rw [ro.fl]; exact idOK) hn
  have ht : (W'.traveledRoute v).1 = (W'.veh v).trace := enterScan_names _ _ _ _
  rw [ht]
  exact (g.pace h.toClean.toReach p k ro hv hs).2.2.2.2.2.fin he

/-- **C98.** A vehicle on a link has been on the way, from the time step after its departure time on, for at least
the free-flow times of the links before and of the distance on this link. -/
theorem C98_running {W W' : CWorld} (h : SteadyReach W) (ro : Roads W) (hn : 0 ≤ W.g.deltaN) {v : ℕ}
    (hv : v < W.g.nVehs) (hs : (W.veh v).state = .home) (g : Goes W W') {l : ℕ} (hl : v ∈ (W'.link l).vehs)
    {ls : List ℕ} (hr : (W'.traveledRoute v).1 = ls ++ [l]) :
    freeTimes W' ls + (W'.veh v).x / (W'.link l).vmax ≤ W'.now - W'.g.deltaT - (W'.veh v).depTime := by
  obtain ⟨p, k⟩ := h.kin (by rw [ro.fl]; exact idOK) hn
  have ht : (W'.traveledRoute v).1 = (W'.veh v).trace := enterScan_names _ _ _ _
  rw [ht] at hr
  obtain ⟨a, _, _, d, _, f⟩ := g.pace h.toClean.toReach p k ro hv hs
  obtain ⟨e2, e1, _⟩ := a.rest.inv.mem l v hl
  obtain ⟨q1, q2, q3, q4, q5, q6⟩ := f.on e1 l e2
  obtain ⟨hu, _⟩ := d.link l q1
  have hb : freeTimes W' ls ≤ base W' (W'.veh v) l := by
    unfold base
    rw [hr, freeTimes_snoc]
    have := freeTime_nonneg d q1
    split <;> linarith
  have : (W'.veh v).x / (W'.link l).vmax ≤ ((W'.veh v).x + (W'.veh v).moveRem) / (W'.link l).vmax :=
    div_le_div_of_nonneg_right (by linarith) hu.le
  linarith

namespace Cpp

theorem cppTwo0_steady : SteadyReach cppTwo0 := by
  refine SteadyReach.step ?_ (CleanStep.edit _ (.toll 1 [3, 3, 3, 3, 3, 1])) 
    ⟨by decide +kernel, fun l _ => ?_⟩
  on_goal 2 =>
    unfold cppTwo0 CWorld.edit; rw [setL_link]
    split
    · rename_i e; rw [e]
    · rfl
  have h0 : SteadyReach (CWorld.empty id 200 5 1 10 (1/2) 0 true false false false true 1) :=
    SteadyReach.empty id 200 5 1 10 (1/2) 0 true false false false true 1
  have h1 := steady_node (q := (0, 0)) h0 (ints := [0]) (off := 0) (cap := -1) (lanes := 0)
    (rng := fun _ => 0) (fuel := 1) rfl (by decide +kernel)
  have h2 := steady_node (q := (0, 0)) h1 (ints := [0]) (off := 0) (cap := -1) (lanes := 0)
    (rng := fun _ => 0) (fuel := 1) rfl (by decide +kernel)
  have h3 := steady_node (q := (0, 0)) h2 (ints := [0]) (off := 0) (cap := -1) (lanes := 0)
    (rng := fun _ => 0) (fuel := 1) rfl (by decide +kernel)
  refine steady_init ?_ (by decide +kernel)
  refine steady_vehicle ?_ (by decide +kernel) (by decide +kernel) (by decide +kernel)
  refine steady_vehicle ?_ (by decide +kernel) (by decide +kernel) (by decide +kernel)
  refine steady_link ?_ rfl (by decide +kernel) (by decide +kernel) (by decide +kernel) (by decide +kernel)
  refine steady_link ?_ rfl (by decide +kernel) (by decide +kernel) (by decide +kernel) (by decide +kernel)
  exact h3

theorem cppTwo_run5 : cppTwo0.mainLoop (fun _ W => W.seqSched) 5 = (cppTwo 5, none) :=
  Prod.ext rfl (by decide +kernel)

end Cpp

/-- Vehicle 0 is never held back and takes the free-flow time; vehicle 1 waits for it at the second link. -/
theorem C98_case : SteadyReach cppTwo0 ∧ Roads cppTwo0 ∧ 0 ≤ cppTwo0.g.deltaN ∧ (cppTwo0.veh 0).state = .home ∧
    (cppTwo0.veh 1).state = .home ∧ Goes cppTwo0 (cppTwo 12) ∧ Goes cppTwo0 (cppTwo 5) ∧
    ((cppTwo 12).veh 0).state = .ended ∧ ((cppTwo 12).traveledRoute 0).1 = [0, 1] ∧
    ((cppTwo 12).veh 0).travelTime = 30 ∧ ((cppTwo 12).veh 1).travelTime = 40 ∧
    freeTimes (cppTwo 12) [0, 1] = 30 - 1 / 10000000000 ∧
    0 ∈ ((cppTwo 5).link 1).vehs ∧ ((cppTwo 5).traveledRoute 0).1 = [0] ++ [1] ∧
    freeTimes (cppTwo 5) [0] + ((cppTwo 5).veh 0).x / ((cppTwo 5).link 1).vmax =
      (cppTwo 5).now - (cppTwo 5).g.deltaT - ((cppTwo 5).veh 0).depTime - 1 / 20000000000 := by
  refine ⟨cppTwo0_steady, ⟨rfl, by decide +kernel, by decide +kernel⟩, by decide +kernel, by decide +kernel,
    by decide +kernel, .run .none _ seqSched_valid 12 cppTwo_run, .run .none _ seqSched_valid 5 cppTwo_run5,
    by decide +kernel, by decide +kernel, by decide +kernel, by decide +kernel, by decide +kernel, by decide +kernel,
    by decide +kernel, by decide +kernel⟩

end UX
