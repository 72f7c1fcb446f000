import Verif.Proofs.CppGaps
import Verif.Props.CppKin
import Verif.Props.CppRows

/-!
# C111: the spacing in the vehicle log of the C++ engine
-/

namespace UX
open Cpp CWorld Cpp.Spec

variable {W W' : CWorld} {sched : ℕ → CWorld → Sched} {endTs : ℕ}

/-- **C111.** After every completed run of at least one time step, the last log entry of every vehicle on the
road shows its position at the beginning of the time step and the spacing to the vehicle `lanes` places ahead
of it in the queue of its link. -/
theorem C111_shown (h : CleanReach W) (hl : W.g.logMode = true) (hs : ∀ t V, (sched t V).Valid V)
    (hr : W.mainLoop sched endTs = (W', none)) (ht : W.g.timestep < W'.g.timestep) {l : ℕ}
    (hlt : l < W.g.nLinks) : GapsShown W' l :=
  main_gaps hs h.toReach.rest hr hl ht hlt

section pairs

variable (h : CleanReach W) (hl : W.g.logMode = true) (hs : ∀ t V, (sched t V).Valid V)
    (hr : W.mainLoop sched endTs = (W', none)) (ht : W.g.timestep < W'.g.timestep) {l : ℕ}
    (hlt : l < W.g.nLinks) {i u v : ℕ} (hu : (W'.link l).vehs[i]? = some u)
    (hv : (W'.link l).vehs[i + (W'.link l).lanes]? = some v) {e f : CLog}
    (he : (W'.veh v).log.getLast? = some e) (hf : (W'.veh u).log.getLast? = some f)
include h hl hs hr ht hlt hu hv he hf

/-- **C111.** If the vehicle in front has the larger id, the spacing in the log is the difference of the two
logged positions. -/
theorem C111_larger (huv : v < u) : e.s = W'.g.fl (f.x - e.x) := by
  obtain ⟨e', a1, a2, a3, _⟩ := C111_shown h hl hs hr ht hlt _ v hv
  obtain ⟨f', b1, b2, _⟩ := C111_shown h hl hs hr ht hlt _ u hu
  obtain rfl := Option.some.inj (he.symm.trans a1)
  obtain rfl := Option.some.inj (hf.symm.trans b1)
  rw [a3 u (by omega) (by rw [Nat.add_sub_cancel]; exact hu), shownGap, if_pos huv, a2, b2]

/-- **C111.** If the vehicle in front has the smaller id, the spacing in the log is larger than the difference
of the two logged positions by the distance that the vehicle in front drives in the time step. -/
theorem C111_smaller (hid : W'.g.fl = id) (hdt : 0 < W'.g.deltaT) (huv : u < v) :
    e.s = f.x - e.x + (W'.veh u).v * W'.g.deltaT := by
  obtain ⟨e', a1, a2, a3, _⟩ := C111_shown h hl hs hr ht hlt _ v hv
  have hc : CleanReach W' := CleanReach.step h (CleanStep.run _ _ _ _ hs hr)
  have hm := hc.toReach.rest.inv.mem l u (List.mem_of_getElem? hu)
  have hl' : W'.g.logMode = true := by
    obtain ⟨k, _⟩ := mainLoop_keep h.toReach.rest (fun t V _ => (hs t V).2.2.2.1.nodup_iff.2 List.nodup_range) hr
    rw [CGlob.fix_logMode k.fix]; exact hl
  obtain ⟨f', b1, _, _, _, b5⟩ := C90_last hc hl' hid hdt hm.2.2.2.1 hm.2.1
  obtain rfl := Option.some.inj (he.symm.trans a1)
  obtain rfl := Option.some.inj (hf.symm.trans b1)
  rw [a3 u (by omega) (by rw [Nat.add_sub_cancel]; exact hu), shownGap, if_neg (by omega), a2, hid, b5, id]
  ring

end pairs

/-! ## Concrete cases -/

namespace Cpp

/-- Vehicle 1 departs before vehicle 0. -/
def cppGap0 : CWorld :=
  let W0 := CWorld.empty id 200 5 1 10 (1/2) 0 true false false false true 1
  let W1 := (((W0.addNodeWith (0, 0) [0] 0 (-1) 0 (fun _ => 0)).addNodeWith (0, 0) [0] 0 (-1) 0
    (fun _ => 0))).addNodeWith (0, 0) [0] 0 (-1) 0 (fun _ => 0)
  let W2 := (W1.addLink 0 1 cppSigArgs).addLink 1 2 cppSigArgs
  (((W2.addVehicle 5 0 2 []).addVehicle 0 0 2 []).addVehicle 5 0 1 []).initAdj

def cppGap (k : ℕ) : CWorld := (cppGap0.mainLoop (fun _ W => W.seqSched) k).1

theorem cppGap0_steady : SteadyReach cppGap0 := by
  unfold cppGap0
  have h0 : SteadyReach (CWorld.empty id 200 5 1 10 (1/2) 0 true false false false true 1) :=
    SteadyReach.empty id 200 5 1 10 (1/2) 0 true false false false true 1
  have h1 := steady_node (q := (0, 0)) h0 (ints := [0]) (off := 0) (cap := -1) (lanes := 0)
    (rng := fun _ => 0) (fuel := 1) rfl (by decide +kernel)
  have h2 := steady_node (q := (0, 0)) h1 (ints := [0]) (off := 0) (cap := -1) (lanes := 0)
    (rng := fun _ => 0) (fuel := 1) rfl (by decide +kernel)
  have h3 := steady_node (q := (0, 0)) h2 (ints := [0]) (off := 0) (cap := -1) (lanes := 0)
    (rng := fun _ => 0) (fuel := 1) rfl (by decide +kernel)
  refine steady_init ?_ (by decide +kernel)
  refine steady_vehicle ?_ (by decide +kernel) (by decide +kernel) (by decide +kernel)
  refine steady_vehicle ?_ (by decide +kernel) (by decide +kernel) (by decide +kernel)
  refine steady_vehicle ?_ (by decide +kernel) (by decide +kernel) (by decide +kernel)
  refine steady_link ?_ rfl (by decide +kernel) (by decide +kernel) (by decide +kernel) (by decide +kernel)
  refine steady_link ?_ rfl (by decide +kernel) (by decide +kernel) (by decide +kernel) (by decide +kernel)
  exact h3

end Cpp

/-- In the time step before step 4, vehicle 0 starts while vehicle 1 is at 200 m: its log shows 200 m. In the
time step before step 6, vehicle 2 starts while vehicle 0 is at 200 m: its log shows 300 m. -/
theorem C111_case : CleanReach cppGap0 ∧ cppGap0.g.logMode = true ∧ cppGap0.g.fl = id ∧
    (cppGap0.mainLoop (fun _ W => W.seqSched) 4).2 = none ∧
    (cppGap0.mainLoop (fun _ W => W.seqSched) 6).2 = none ∧ cppGap0.g.timestep < (cppGap 4).g.timestep ∧
    ((cppGap 4).link 0).vehs = [1, 0] ∧ ((cppGap 6).link 0).vehs = [0, 2] ∧
    (((cppGap 4).veh 1).log.getLast?.map (fun e => (e.x, e.s)) = some (200, -1)) ∧
    (((cppGap 4).veh 0).log.getLast?.map (fun e => (e.x, e.s)) = some (0, 200)) ∧
    (((cppGap 6).veh 0).log.getLast?.map (fun e => (e.x, e.s)) = some (200, -1)) ∧
    (((cppGap 6).veh 2).log.getLast?.map (fun e => (e.x, e.s)) = some (0, 300)) :=
  ⟨cppGap0_steady.toClean, by decide +kernel, rfl, by decide +kernel, by decide +kernel, by decide +kernel,
    by decide +kernel, by decide +kernel, by decide +kernel, by decide +kernel, by decide +kernel,
    by decide +kernel⟩

/-- **C111.** The spacing in the log is not always the distance between the two vehicles at the logged time:
here it is too large by the 100 m that the vehicle in front drives. -/
theorem C111_distance_false : ∃ W : CWorld, CleanReach W ∧ W.g.fl = id ∧ (W.link 0).vehs = [0, 2] ∧
    (W.link 0).lanes = 1 ∧ ∃ e f, (W.veh 2).log.getLast? = some e ∧ (W.veh 0).log.getLast? = some f ∧
      e.link = some 0 ∧ f.link = some 0 ∧ e.s = f.x - e.x + 100 := by
  have hr : cppGap0.mainLoop (fun _ W => W.seqSched) 6 = (cppGap 6, none) :=
    Prod.ext rfl (by decide +kernel)
  have e : (cppGap 6).g.fl = id := by
    obtain ⟨k, _⟩ := mainLoop_keep cppGap0_steady.toClean.toReach.rest
      (fun t V _ => (seqSched_valid t V).2.2.2.1.nodup_iff.2 List.nodup_range) hr
    exact CGlob.fix_fl k.fix
  refine ⟨cppGap 6, CleanReach.step cppGap0_steady.toClean (CleanStep.run _ _ _ _ seqSched_valid hr), e,
    by decide +kernel, by decide +kernel, ⟨some 0, 0, 20, 0, 300⟩, ⟨some 0, 200, 20, 0, -1⟩, ?_⟩
  decide +kernel

end UX
