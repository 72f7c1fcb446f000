import Verif.Proofs.CppStatsSum
import Verif.Props.CppSpeed

/-!
# C100: statistics of the C++ engine
-/

namespace UX
open Cpp Cpp.Spec Cpp.CWorld

/-- **C100.** The statistics of a link are the sum of the speeds and the number of the log entries that name the
link. -/
theorem C100_link {W : CWorld} (h : CReach W) (hf : W.g.fl = id) (hm : W.g.logMode = true) {l : ℕ} (hl : l < W.g.nLinks) :
    (W.link l).aveV = speedOn W l ∧ (W.link l).stat = countOn W l :=
  ⟨(h.counted hf hm).aveV l hl, (h.counted hf hm).stat l hl⟩

/-- **C100.** The statistics of a node are the number of time steps that vehicles have waited there for their
departure according to their logs. -/
theorem C100_node {W : CWorld} (h : CleanReach W) (hf : W.g.fl = id) (hm : W.g.logMode = true) (hdt : 0 ≤ W.g.deltaT)
    {n : ℕ} (hn : n < W.g.nNodes) : (W.node n).stat = waitsAt W n := by
  rw [(h.toReach.counted hf hm).wait n hn]
  congr 1
  unfold waits waitsAt
  rw [Finset.sum_filter]
  refine Finset.sum_congr rfl (fun v hv => ?_)
  rw [timesIn_wait (h.logs (by rw [hf]; exact monotone_id) hdt hm v (Finset.mem_range.1 hv))]

/-- **C100.** In a call of `main_loop` the sum of the speed ratios of a link grows by the sum of the speeds logged
there, divided by the speed limit of the link. -/
theorem C100_ratio {W : CWorld} (h : CReach W) (hf : W.g.fl = id) (hm : W.g.logMode = true)
    {sched : ℕ → CWorld → Sched} (hs : ∀ t V, (sched t V).Valid V) (k l : ℕ) :
    ((W.mainLoop sched k).1.link l).aveVr =
      (W.link l).aveVr + (speedOn (W.mainLoop sched k).1 l - speedOn W l) / (W.link l).vmax :=
  (mainLoop_evs h.rest (fun t V _ => (hs t V).2.2.2.1.nodup_iff.2 List.nodup_range) k).ratio hf hm l

/-- **C100.** The printed average speed is the mean of the logged speeds over all time steps of all vehicles on the
road or waiting for their departure, with speed 0 while they wait. -/
theorem C100_mean {W : CWorld} (h : CleanReach W) (hf : W.g.fl = id) (hm : W.g.logMode = true) (hdt : 0 ≤ W.g.deltaT) :
    W.avePrinted = if 0 < ∑ v ∈ Finset.range W.g.nVehs, (timesIn W v .run + timesIn W v .wait) then
      (∑ v ∈ Finset.range W.g.nVehs, speedOf W v) /
        ((∑ v ∈ Finset.range W.g.nVehs, (timesIn W v .run + timesIn W v .wait) : ℕ) : ℚ) else 0 := by
  have c := h.toReach.counted hf hm
  unfold avePrinted
  rw [c.samples hf h.toReach.rest.inv.orig (fun v hv => h.logs (by rw [hf]; exact monotone_id) hdt hm v hv),
    c.speed hf, hf]
  simp only [Nat.cast_pos, id]

/-- **C100.** The progress line shows the number of vehicles on the road and their mean speed. -/
theorem C100_progress {W : CWorld} (h : CReach W) (hf : W.g.fl = id) :
    W.progressVehs = (onRoad W).card * W.g.deltaN ∧
    W.progressSpeed = if 0 < (onRoad W).card then (∑ v ∈ onRoad W, (W.veh v).v) / (onRoad W).card else 0 := by
  unfold progressVehs progressSpeed
  rw [platoons h.rest.inv hf, speeds h.rest.inv hf, hf]
  simp only [Nat.cast_pos, id, and_self]

namespace Cpp

/-- `cppFast0` with one vehicle. -/
def cppSolo0 : CWorld :=
  let W0 := CWorld.empty id 200 5 1 10 (1/2) 0 true false false false true 1
  let W1 := (((W0.addNodeWith (0, 0) [0] 0 (-1) 0 (fun _ => 0)).addNodeWith (0, 0) [0] 0 (-1) 0
    (fun _ => 0))).addNodeWith (0, 0) [0] 0 (-1) 0 (fun _ => 0)
  let W2 := (W1.addLink 0 1 (cppFastArgs 250 20)).addLink 1 2 (cppFastArgs 200 10)
  (W2.addVehicle 0 0 2 []).initAdj

def cppSolo (k : ℕ) : CWorld := (cppSolo0.mainLoop (fun _ W => W.seqSched) k).1

theorem cppSolo0_steady : SteadyReach cppSolo0 := by
  have h0 : SteadyReach (CWorld.empty id 200 5 1 10 (1/2) 0 true false false false true 1) :=
    SteadyReach.empty id 200 5 1 10 (1/2) 0 true false false false true 1
  have h1 := steady_node (q := (0, 0)) h0 (ints := [0]) (off := 0) (cap := -1) (lanes := 0)
    (rng := fun _ => 0) (fuel := 1) rfl (by decide +kernel)
  have h2 := steady_node (q := (0, 0)) h1 (ints := [0]) (off := 0) (cap := -1) (lanes := 0)
    (rng := fun _ => 0) (fuel := 1) rfl (by decide +kernel)
  have h3 := steady_node (q := (0, 0)) h2 (ints := [0]) (off := 0) (cap := -1) (lanes := 0)
    (rng := fun _ => 0) (fuel := 1) rfl (by decide +kernel)
  refine steady_init ?_ (by decide +kernel)
  refine steady_vehicle ?_ (by decide +kernel) (by decide +kernel) (by decide +kernel)
  refine steady_link ?_ rfl (by decide +kernel) (by decide +kernel) (by decide +kernel) (by decide +kernel)
  refine steady_link ?_ rfl (by decide +kernel) (by decide +kernel) (by decide +kernel) (by decide +kernel)
  exact h3

theorem cppSolo_run : cppSolo0.mainLoop (fun _ W => W.seqSched) 12 = (cppSolo 12, none) :=
  Prod.ext rfl (by decide +kernel)

end Cpp

/-- Two vehicles, of which the second has to wait. -/
theorem C100_case : CleanReach cppFast0 ∧ cppFast0.g.fl = id ∧ cppFast0.g.logMode = true ∧ 0 ≤ cppFast0.g.deltaT ∧
    cppFast0.mainLoop (fun _ W => W.seqSched) 12 = (cppFast 12, none) ∧
    ((cppFast 12).link 0).aveV = 115 ∧ ((cppFast 12).link 0).stat = 6 ∧ ((cppFast 12).link 1).aveV = 90 ∧
    ((cppFast 12).link 1).aveVr = 9 ∧ ((cppFast 12).link 1).vmax = 10 ∧ ((cppFast 12).node 0).stat = 1 ∧
    (cppFast 12).avePrinted = 205 / 15 ∧ (cppFast 5).progressVehs = 10 ∧ (cppFast 5).progressSpeed = 25 / 2 := by
  refine ⟨cppFast0_steady.toClean, rfl, by decide +kernel, by decide +kernel, cppFast_run, by decide +kernel, by decide +kernel, by decide +kernel, by decide +kernel,
    by decide +kernel, by decide +kernel, by decide +kernel, by decide +kernel, by decide +kernel⟩

/-- **C100**, what does not hold: the printed average speed ratio can be above 1, although no vehicle is ever
faster than the limit of its link between time steps (C99): the speed of a vehicle that has just changed to a
slower link is divided by the limit of the slower link. -/
theorem C100_ratio_one_false : ¬ ∀ (W : CWorld) (k : ℕ), SteadyReach W → Roads W → 0 ≤ W.g.deltaN → 0 < W.g.deltaT →
    (∀ v, v < W.g.nVehs → (W.veh v).state = .home) → W.g.timestep = 0 →
    (W.mainLoop (fun _ W => W.seqSched) k).1.ratioPrinted ≤ 1 := by
  intro h
  have := h cppSolo0 12 cppSolo0_steady ⟨rfl, by decide +kernel, by decide +kernel⟩ (by decide +kernel)
    (by decide +kernel) (by decide +kernel) (by decide +kernel)
  exact absurd this (by decide +kernel)

end UX
