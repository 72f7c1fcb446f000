import Verif.Props.CppFlow
import Verif.Proofs.CppSignals

/-!
# C84, C85, C86: histories, capacities and signals of the C++ engine
-/

namespace UX
open Cpp Cpp.CWorld Cpp.Spec

theorem Cpp.RunHist.history {W W' : CWorld} {h : List Pass} (r : RunHist W h W') : History W W' h :=
  ⟨r.timed, r.road, r.walk, r.fifo⟩

/-- **C84.** What a completed run does is a list of passages of vehicles in the order of time: each
vehicle goes from where it was to where it is along links that join, each link is first-in first-out,
and the recorded travel times are those between entering and leaving. -/
theorem C84_history {W W' : CWorld} (h : CReach W) {sched : ℕ → CWorld → Sched}
    (hs : ∀ t V, (sched t V).Valid V) {endTs : ℕ} (hr : W.mainLoop sched endTs = (W', none)) :
    ∃ p, History W W' p := by
  obtain ⟨p, r⟩ := main_hist hs h.rest hr
  exact ⟨p, r.history⟩

/-- **C84.** The curves recorded by the run count the passages of this history. -/
theorem C84_curves {W W' : CWorld} (h : CleanReach W) (hx : ExactCounts W.g) {sched : ℕ → CWorld → Sched}
    (hs : ∀ t V, (sched t V).Valid V) {endTs : ℕ} (hr : W.mainLoop sched endTs = (W', none)) :
    ∃ p, History W W' p ∧ ∀ l, l < W.g.nLinks → Curves W W' l p := by
  obtain ⟨p, r⟩ := main_hist hs h.toReach.rest hr
  obtain ⟨⟨A, D, f⟩, _⟩ := h.flow hx
  exact ⟨p, r.history, fun l hl => r.curves hl hx (f.whole hl)⟩

/-- **C85.** In any window of time steps of a completed run the vehicles that enter a link, those that
move out of it to another link, and those that move through a node of limited capacity are limited by the
capacity. -/
theorem C85_capacity {W W' : CWorld} (h : CReach W) {sched : ℕ → CWorld → Sched}
    (hs : ∀ t V, (sched t V).Valid V) {endTs : ℕ} (hr : W.mainLoop sched endTs = (W', none))
    (hfl : W.g.fl = id) (hN : 0 ≤ W.g.deltaN) (hT : 0 ≤ W.g.deltaT) :
    ∃ p, History W W' p ∧
      (∀ l, l < W.g.nLinks → 0 ≤ (W.link l).capIn → (W.link l).capIn < 10000000000 →
        0 ≤ (W.link l).capInRem →
        Limited W.g.deltaN ((W.link l).capIn * W.g.deltaT)
          (W.g.deltaN * (W.link l).lanes + (W.link l).capIn * W.g.deltaT) (W.link l).capInRem
          W.g.timestep W'.g.timestep (into l p)) ∧
      (∀ l, l < W.g.nLinks → 0 ≤ (W.link l).capOut → (W.link l).capOut < 10000000000 →
        0 ≤ (W.link l).capOutRem →
        Limited W.g.deltaN ((W.link l).capOut * W.g.deltaT)
          (W.g.deltaN * (W.link l).lanes + (W.link l).capOut * W.g.deltaT) (W.link l).capOutRem
          W.g.timestep W'.g.timestep (movedOut l p)) ∧
      ∀ n, n < W.g.nNodes → 0 ≤ (W.node n).flowCap → 0 ≤ (W.node n).flowRem →
        Limited W.g.deltaN ((W.node n).flowCap * W.g.deltaT)
          (W.g.deltaN * (if 0 < (W.node n).lanes then (W.node n).lanes else 1 : ℤ) +
            (W.node n).flowCap * W.g.deltaT) (W.node n).flowRem
          W.g.timestep W'.g.timestep (through W n p) := by
  obtain ⟨p, r⟩ := main_hist hs h.rest hr
  refine ⟨p, r.history, fun l hl h0 h1 h2 => ?_, fun l hl h0 h1 h2 => ?_, fun n hn h0 h2 => ?_⟩
  · exact (r.meterIn hfl hl h1 (mul_nonneg h0 hT)).limited hN (mul_nonneg h0 hT) h2
  · exact (r.meterOut hfl hl h1 (mul_nonneg h0 hT)).limited hN (mul_nonneg h0 hT) h2
  · exact (r.meterNode hfl hn h0 (mul_nonneg h0 hT)).limited hN (mul_nonneg h0 hT) h2

/-- **C85.** The counters of capacity stay between zero and their greatest refill. -/
theorem C85_counters {W W' : CWorld} (h : CReach W) {sched : ℕ → CWorld → Sched}
    (hs : ∀ t V, (sched t V).Valid V) {endTs : ℕ} (hr : W.mainLoop sched endTs = (W', none))
    (hfl : W.g.fl = id) (hN : 0 ≤ W.g.deltaN) (hT : 0 ≤ W.g.deltaT) {l : ℕ} (hl : l < W.g.nLinks) :
    (0 ≤ (W.link l).capIn → (W.link l).capIn < 10000000000 → 0 ≤ (W.link l).capInRem →
      0 ≤ (W'.link l).capInRem ∧ (W'.link l).capInRem ≤
        max (W.link l).capInRem (W.g.deltaN * (W.link l).lanes + (W.link l).capIn * W.g.deltaT)) ∧
    (0 ≤ (W.link l).capOut → (W.link l).capOut < 10000000000 → 0 ≤ (W.link l).capOutRem →
      0 ≤ (W'.link l).capOutRem ∧ (W'.link l).capOutRem ≤
        max (W.link l).capOutRem (W.g.deltaN * (W.link l).lanes + (W.link l).capOut * W.g.deltaT)) := by
  obtain ⟨p, r⟩ := main_hist hs h.rest hr
  refine ⟨fun h0 h1 h2 => ?_, fun h0 h1 h2 => ?_⟩
  · have m := r.meterIn hfl hl h1 (mul_nonneg h0 hT)
    exact ⟨m.nonneg h2, m.bound hN⟩
  · have m := r.meterOut hfl hl h1 (mul_nonneg h0 hT)
    exact ⟨m.nonneg h2, m.bound hN⟩

/-- **C85.** A new link starts with the counter of one time step of its outflow capacity. With an inflow
capacity given, that holds for it too. -/
theorem C85_fresh (W : CWorld) (src dst : ℕ) (a : LinkArgs) (hfl : W.g.fl = id) :
    let L := (W.addLink src dst a).link W.g.nLinks
    L.capOutRem = L.capOut * W.g.deltaT ∧ (0 ≤ a.capIn → L.capIn = a.capIn ∧ L.capInRem = a.capIn * W.g.deltaT) ∧
      (a.capIn < 0 → L.capInRem = L.capIn) := by
  have e : (W.addLink src dst a).link W.g.nLinks = W.newLink src dst a := by
    simp [CWorld.addLink, upd]
  rw [e]
  simp only [CWorld.newLink, hfl, id]
  refine ⟨trivial, fun h => ?_, fun h => ?_⟩
  · rw [if_neg (not_lt.2 h)]; simp [not_lt.2 h]
  · rw [if_pos h, if_pos h]

/-- **C86.** No vehicle passes a red light: whenever a vehicle moves from link to link through a node
with two or more phases, the phase recorded for that time step is one of the link's signal groups. -/
theorem C86_red {W W' : CWorld} (h : CReach W) {sched : ℕ → CWorld → Sched}
    (hs : ∀ t V, (sched t V).Valid V) {endTs : ℕ} (hr : W.mainLoop sched endTs = (W', none)) :
    ∃ p, History W W' p ∧ ∀ e ∈ p, GreenAt W W' e := by
  obtain ⟨p, r⟩ := main_hist hs h.rest hr
  exact ⟨p, r.history, r.green (fun a ha => (h.rest.inv.ends a ha).2.1)⟩

/-- **C86.** One phase is recorded for each time step, and phases follow in cyclic order. -/
theorem C86_order {W W' : CWorld} (h : CReach W) {sched : ℕ → CWorld → Sched}
    (hs : ∀ t V, (sched t V).Valid V) {endTs : ℕ} (hr : W.mainLoop sched endTs = (W', none)) {n : ℕ}
    (hn : n < W.g.nNodes) (hp : (W.node n).sigPhase < (W.node n).sigInt.length) :
    (W'.node n).sigPhase < (W.node n).sigInt.length ∧
    ∃ ps, (W'.node n).sigLog = (W.node n).sigLog ++ ps ∧ ps.length = W'.g.timestep - W.g.timestep ∧
      Cyclic (W.node n).sigInt.length (W.node n).sigPhase ps ∧
      (W'.node n).sigPhase = ps.getLastD (W.node n).sigPhase := by
  obtain ⟨p, r⟩ := main_hist hs h.rest hr
  obtain ⟨L, h1, h2, h3⟩ := r.sigLog hn
  have h4 := congrArg Prod.fst (r.signal hn)
  simp only at h4
  refine ⟨?_, L, h1, h2, cyclic_of_iter (x := ((W.node n).sigPhase, (W.node n).sigT)) L hp
    (fun k hk => h3 k (by omega)), ?_⟩
  · rw [h4]; exact sigIter_valid _ hp
  · rcases Nat.eq_zero_or_pos (W'.g.timestep - W.g.timestep) with e | e
    · rw [e] at h2 h4
      rw [List.length_eq_zero_iff.1 h2, h4]; rfl
    · have h5 := h3 (W'.g.timestep - W.g.timestep - 1) (by omega)
      rw [show W'.g.timestep - W.g.timestep - 1 + 1 = W'.g.timestep - W.g.timestep by omega, ← h4, ← h2,
        ← List.getLast?_eq_getElem?] at h5
      rw [List.getLastD_eq_getLast?, h5]; rfl

/-- **C86.** A phase that has just begun (its clock shows one time step) lasts for exactly
`⌊green / delta_t⌋ + 1` time steps, after which the next phase has just begun. -/
theorem C86_duration {W W' : CWorld} (h : CReach W) {sched : ℕ → CWorld → Sched}
    (hs : ∀ t V, (sched t V).Valid V) {endTs : ℕ} (hr : W.mainLoop sched endTs = (W', none))
    (hfl : W.g.fl = id) (hT : 0 < W.g.deltaT) {n : ℕ} (hn : n < W.g.nNodes)
    (h2 : 2 ≤ (W.node n).sigInt.length) (hp : (W.node n).sigPhase < (W.node n).sigInt.length)
    (ht : (W.node n).sigT = W.g.deltaT) {green : ℚ}
    (hg : (W.node n).sigInt[(W.node n).sigPhase]? = some green) (h0 : 0 ≤ green) :
    (W'.g.timestep ≤ W.g.timestep + ⌊green / W.g.deltaT⌋₊ →
      (W'.node n).sigPhase = (W.node n).sigPhase) ∧
    (W'.g.timestep = W.g.timestep + ⌊green / W.g.deltaT⌋₊ + 1 →
      (W'.node n).sigPhase = ((W.node n).sigPhase + 1) % (W.node n).sigInt.length ∧
      (W'.node n).sigT = W.g.deltaT) := by
  obtain ⟨p, r⟩ := main_hist hs h.rest hr
  have e := r.signal hn
  have hle := r.keep.2.2
  have hgd : (W.node n).sigInt.getD (W.node n).sigPhase 0 = green := by
    rw [List.getD_eq_getElem?_getD, hg]; rfl
  obtain ⟨d1, d2⟩ := sig_duration hfl h2 hp hT (by rw [hgd]; exact h0)
  rw [hgd] at d1 d2
  rw [ht] at e
  refine ⟨fun hk => ?_, fun hk => ?_⟩
  · rw [d1 _ (by omega)] at e
    exact congrArg Prod.fst e
  · rw [show W'.g.timestep - W.g.timestep = ⌊green / W.g.deltaT⌋₊ + 1 by omega, d2] at e
    exact ⟨congrArg Prod.fst e, congrArg Prod.snd e⟩

/-! ## Concrete case -/

namespace Cpp

/-- Two links of limited capacity that meet at a signal; the first link is green in phase 1. -/
def cppSigArgs : LinkArgs :=
  { vmax := 20, kappa := 1/5, len := 300, lanes := 1, mergePri := 1, capOut := 1/2, capIn := 1/2,
    group := [1], rng := fun _ => 0 }

def cppSig0 : CWorld :=
  let W0 := CWorld.empty id 200 5 1 10 (1/2) 0 true false false false true 1
  let W1 := (((W0.addNodeWith (0, 0) [0] 0 (-1) 0 (fun _ => 0)).addNodeWith (0, 0) [10, 15] 0 (3/4) 0
    (fun _ => 0))).addNodeWith (0, 0) [0] 0 (-1) 0 (fun _ => 0)
  let W2 := (W1.addLink 0 1 cppSigArgs).addLink 1 2 cppSigArgs
  (((((W2.addVehicle 0 0 2 []).addVehicle 0 0 2 []).addVehicle 5 0 2 []).addVehicle 5 0 2
    []).addVehicle 80 0 2 []).initAdj

def cppSig (k : ℕ) : CWorld := (cppSig0.mainLoop (fun _ W => W.seqSched) k).1

theorem cppSig0_clean : CleanReach cppSig0 := by
  refine CleanReach.step ?_ (CleanStep.init _)
  refine CleanReach.step ?_ (CleanStep.vehicle _ 80 0 2 [] (by decide) (by decide))
  refine CleanReach.step ?_ (CleanStep.vehicle _ 5 0 2 [] (by decide) (by decide))
  refine CleanReach.step ?_ (CleanStep.vehicle _ 5 0 2 [] (by decide) (by decide))
  refine CleanReach.step ?_ (CleanStep.vehicle _ 0 0 2 [] (by decide) (by decide))
  refine CleanReach.step ?_ (CleanStep.vehicle _ 0 0 2 [] (by decide) (by decide))
  refine CleanReach.step ?_ (CleanStep.link _ 1 2 cppSigArgs (by decide) (by decide) (by decide) (by decide))
  refine CleanReach.step ?_ (CleanStep.link _ 0 1 cppSigArgs (by decide) (by decide) (by decide) (by decide))
  refine CleanReach.step ?_ (CleanStep.node _ _ [0] 0 (-1) 0 (fun _ => 0) 1 rfl)
  have h1 : CleanReach ((CWorld.empty id 200 5 1 10 (1/2) 0 true false false false true 1).addNodeWith
      (0, 0) [0] 0 (-1) 0 (fun _ => 0)) :=
    CleanReach.step (CleanReach.empty id 200 5 1 10 (1/2) 0 true false false false true 1)
      (CleanStep.node _ _ [0] 0 (-1) 0 (fun _ => 0) 1 rfl)
  refine CleanReach.step h1 (CleanStep.node _ _ [10, 15] 0 (3/4) 0 (fun _ => 0) 3 ?_)
  have : CWorld.sigInit id [10, 15] 0 3 = some (0, 0) := by decide +kernel
  unfold CWorld.addNode
  have e : ((CWorld.empty id 200 5 1 10 (1/2) 0 true false false false true 1).addNodeWith
      (0, 0) [0] 0 (-1) 0 (fun _ => 0)).g.fl = id := rfl
  rw [e, this]; rfl

theorem cppSig_run {k : ℕ} (h : (cppSig0.mainLoop (fun _ W => W.seqSched) k).2 = none) :
    cppSig0.mainLoop (fun _ W => W.seqSched) k = (cppSig k, none) := Prod.ext rfl h

end Cpp

/-- The run of eleven time steps: vehicles queue before the red light, three have passed. -/
theorem C84_case : ∃ p, History cppSig0 (cppSig 11) p ∧ (∀ l, l < 2 → Curves cppSig0 (cppSig 11) l p) ∧
    queue (cppSig 11) 0 = [(3, 35)] ∧ ((cppSig 11).link 0).ttEvents = [(1, 15), (3, 15), (5, 25)] ∧
    ((cppSig 11).link 0).arr 10 = 20 ∧ ((cppSig 11).link 0).dep 10 = 15 := by
  obtain ⟨p, h1, h2⟩ := C84_curves cppSig0_clean (fun _ => rfl) seqSched_valid
    (cppSig_run (k := 11) (by decide +kernel))
  exact ⟨p, h1, h2, by decide +kernel, by decide +kernel, by decide +kernel, by decide +kernel⟩

/-- The hypotheses of C85 hold for this run, with capacities that bind. -/
theorem C85_case : cppSig0.mainLoop (fun _ W => W.seqSched) 11 = (cppSig 11, none) ∧
    cppSig0.g.fl = id ∧ 0 ≤ cppSig0.g.deltaN ∧ 0 ≤ cppSig0.g.deltaT ∧ 0 ≤ (cppSig0.link 0).capIn ∧
    (cppSig0.link 0).capIn < 10000000000 ∧ 0 ≤ (cppSig0.link 0).capInRem ∧
    0 ≤ (cppSig0.link 0).capOut ∧ (cppSig0.link 0).capOut < 10000000000 ∧
    0 ≤ (cppSig0.link 0).capOutRem ∧ 0 ≤ (cppSig0.node 1).flowCap ∧ 0 ≤ (cppSig0.node 1).flowRem ∧
    ((cppSig 11).link 0).capOutRem = 0 ∧ ((cppSig 6).link 0).capInRem = 0 := by
  exact ⟨cppSig_run (by decide +kernel), rfl, by decide, by decide +kernel, by decide +kernel, by decide +kernel,
    by decide +kernel, by decide +kernel, by decide +kernel, by decide +kernel, by decide +kernel, by decide +kernel,
    by decide +kernel, by decide +kernel⟩

/-- The signal of this run: green times of 10 and 15 seconds last three and four time steps of 5
seconds; the vehicle that arrives at time step 8 waits until time step 10. -/
theorem C86_case : ((cppSig 22).node 1).sigLog =
      [0, 0, 0, 1, 1, 1, 1, 0, 0, 0, 1, 1, 1, 1, 0, 0, 0, 1, 1, 1, 1, 0] ∧
    ((cppSig 4).node 1).sigT = (cppSig 4).g.deltaT ∧ ((cppSig 4).node 1).sigPhase = 1 ∧
    ((cppSig 10).link 0).vehs = [2, 3] ∧ ((cppSig 11).link 0).vehs = [3] := by
  exact ⟨by decide +kernel, by decide +kernel, by decide +kernel, by decide +kernel, by decide +kernel⟩

end UX
