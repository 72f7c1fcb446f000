import Verif.Props.CppExample
import Verif.Proofs.CppFlow

/-!
# C82: the cumulative curves of the C++ engine
-/

namespace UX
open Cpp Cpp.CWorld Cpp.Spec

/-- **C82.** At the end of every time step the vehicles counted into a link and not counted out of it
are exactly those in its queue. -/
theorem C82_balance {W : CWorld} (h : CleanReach W) (hfl : ExactCounts W.g) {l : ℕ}
    (hl : l < W.g.nLinks) : Balanced W l := by
  obtain ⟨⟨A, D, f⟩, _⟩ := h.flow hfl
  intro s hs
  obtain ⟨p, q⟩ := f.past l s hl (by omega)
  rw [p, q, f.bal l s hl hs]
  push_cast
  ring

/-- **C82.** Both curves are those of counters that never go back, and never more vehicles are counted
out than in. -/
theorem C82_curves {W : CWorld} (h : CleanReach W) (hfl : ExactCounts W.g) {l : ℕ}
    (hl : l < W.g.nLinks) : CurvesOK W l := by
  obtain ⟨⟨A, D, f⟩, _⟩ := h.flow hfl
  by_cases h0 : W.g.timestep = 0
  · exact ⟨fun _ => 0, fun _ => 0, fun _ _ _ => le_rfl, fun _ _ _ => le_rfl, fun _ => le_rfl,
      fun s hs => absurd hs (by omega)⟩
  · refine ⟨fun s => A l (min s (W.g.timestep - 1)), fun s => D l (min s (W.g.timestep - 1)),
      monotone_nat_of_le_succ fun s => ?_, monotone_nat_of_le_succ fun s => ?_,
      fun s => f.le l _ hl (by omega), fun s hs => ?_⟩
    · by_cases hs : s + 1 < W.g.timestep
      · rw [show min s (W.g.timestep - 1) = s by omega, show min (s + 1) (W.g.timestep - 1) = s + 1 by omega]
        exact (f.mono l s hl hs).1
      · rw [show min s (W.g.timestep - 1) = min (s + 1) (W.g.timestep - 1) by omega]
    · by_cases hs : s + 1 < W.g.timestep
      · rw [show min s (W.g.timestep - 1) = s by omega, show min (s + 1) (W.g.timestep - 1) = s + 1 by omega]
        exact (f.mono l s hl hs).2
      · rw [show min s (W.g.timestep - 1) = min (s + 1) (W.g.timestep - 1) by omega]
    · simp only
      rw [show min s (W.g.timestep - 1) = s by omega]
      exact f.past l s hl hs

/-- **C82.** A later run, completed or not, does not change the curves of the time steps already made. -/
theorem C82_frozen {W : CWorld} (h : CleanReach W) (hfl : ExactCounts W.g)
    {sched : ℕ → CWorld → Sched} (hs : ∀ t V, (sched t V).Valid V) (endTs l s : ℕ)
    (ht : s < W.g.timestep) :
    ((W.mainLoop sched endTs).1.link l).arr s = (W.link l).arr s ∧
      ((W.mainLoop sched endTs).1.link l).dep s = (W.link l).dep s := by
  obtain ⟨⟨A, D, f⟩, _⟩ := h.flow hfl
  exact (f.mainLoop hs hfl h.toReach.rest endTs).1 l s ht

/-- **C82.** Also when a run throws, the curves of the time step that failed agree with the queues it
leaves behind. -/
theorem C82_exception {W : CWorld} (h : CleanReach W) (hfl : ExactCounts W.g)
    {sched : ℕ → CWorld → Sched} (hs : ∀ t V, (sched t V).Valid V) (endTs : ℕ) {W' : CWorld}
    {e : CErr} (he : W.mainLoop sched endTs = (W', some e)) {l : ℕ} (hl : l < W.g.nLinks) :
    (W'.link l).arr W'.g.timestep - (W'.link l).dep W'.g.timestep =
      W.g.deltaN * (W'.link l).vehs.length := by
  obtain ⟨⟨A, D, f⟩, _⟩ := h.flow hfl
  have := (f.mainLoop hs hfl h.toReach.rest endTs).2.2.2
  rw [he] at this
  obtain ⟨a, d, p, q, u⟩ := this (by simp) l hl
  simp only at p q u
  rw [p, q, u]
  push_cast
  ring

/-! ## A run that throws, called again -/

/-- Two separate links; the second vehicle has a route it cannot take. -/
def Cpp.cppBad0 : CWorld :=
  let W0 := CWorld.empty id 100 5 1 10 (1/2) 0 true false false false true 1
  let W1 := ((((W0.addNodeWith (0, 0) [0] 0 (-1) 0 (fun _ => 0)).addNodeWith (0, 0) [0] 0 (-1) 0
    (fun _ => 0))).addNodeWith (0, 0) [0] 0 (-1) 0 (fun _ => 0)).addNodeWith (0, 0) [0] 0 (-1) 0
    (fun _ => 0)
  let W2 := (W1.addLink 0 1 cppExArgs).addLink 2 3 cppExArgs
  ((((W2.addVehicle 0 0 1 []).addVehicle 0 2 3 []).edit (.enforce 1 [0]))).initAdj

/-- The world after a first call, which throws, and the one after a second call. -/
def Cpp.cppBad1 : CWorld := (cppBad0.mainLoop (fun _ W => W.seqSched) 2).1
def Cpp.cppBad2 : CWorld := (cppBad1.mainLoop (fun _ W => W.seqSched) 2).1

theorem Cpp.cppBad0_reach : CReach cppBad0 := by
  refine CReach.step ?_ (CStep.init _)
  refine CReach.step ?_ (CStep.edit _ (.enforce 1 [0]))
  refine CReach.step ?_ (CStep.vehicle _ 0 2 3 [] (by decide) (by decide))
  refine CReach.step ?_ (CStep.vehicle _ 0 0 1 [] (by decide) (by decide))
  refine CReach.step ?_ (CStep.link _ 2 3 cppExArgs (by decide) (by decide) (by decide) (by decide))
  refine CReach.step ?_ (CStep.link _ 0 1 cppExArgs (by decide) (by decide) (by decide) (by decide))
  refine CReach.step ?_ (CStep.node _ _ [0] 0 (-1) 0 (fun _ => 0) 1 rfl)
  refine CReach.step ?_ (CStep.node _ _ [0] 0 (-1) 0 (fun _ => 0) 1 rfl)
  refine CReach.step ?_ (CStep.node _ _ [0] 0 (-1) 0 (fun _ => 0) 1 rfl)
  refine CReach.step ?_ (CStep.node _ _ [0] 0 (-1) 0 (fun _ => 0) 1 rfl)
  exact CReach.empty id 100 5 1 10 (1/2) 0 true false false false true 1

/-- **C82 is false without "did not throw".** After a caught exception the time step is made again by
the next call, starting from the counts of the step before: the vehicle that entered its link in the
failed step is in the queue but was counted only in the entry that the second call overwrote. -/
theorem C82_exception_false : ∃ W : CWorld, CReach W ∧ ExactCounts W.g ∧ 0 < W.g.nLinks ∧
    (W.link 0).vehs = [0] ∧ ∀ t, t ≤ W.g.timestep → (W.link 0).arr t = 0 := by
  refine ⟨cppBad2, CReach.step (CReach.step cppBad0_reach (CStep.run _ 2 _ seqSched_valid))
    (CStep.run _ 2 _ seqSched_valid), ?_, ?_, ?_, ?_⟩
  · have r0 := cppBad0_reach.rest
    have r1 := (CReach.step cppBad0_reach (CStep.run _ 2 _ seqSched_valid)).rest
    exact ExactCounts.of_fix ((r0.mainFix seqSched_valid 2).symm.trans (r1.mainFix seqSched_valid 2).symm)
      (fun _ => rfl)
  · decide +kernel
  · decide +kernel
  · decide +kernel

/-! ## Concrete case -/

theorem Cpp.cppEx0_clean : CleanReach cppEx0 := by
  refine CleanReach.step ?_ (CleanStep.init _)
  refine CleanReach.step ?_ (CleanStep.vehicle _ 80 0 2 [] (by decide) (by decide))
  refine CleanReach.step ?_ (CleanStep.vehicle _ 5 0 2 [] (by decide) (by decide))
  refine CleanReach.step ?_ (CleanStep.vehicle _ 5 0 2 [] (by decide) (by decide))
  refine CleanReach.step ?_ (CleanStep.vehicle _ 0 0 2 [] (by decide) (by decide))
  refine CleanReach.step ?_ (CleanStep.vehicle _ 0 0 2 [] (by decide) (by decide))
  refine CleanReach.step ?_ (CleanStep.link _ 1 2 cppExArgs (by decide) (by decide) (by decide) (by decide))
  refine CleanReach.step ?_ (CleanStep.link _ 0 1 cppExArgs (by decide) (by decide) (by decide) (by decide))
  refine CleanReach.step ?_ (CleanStep.node _ _ [0] 0 (-1) 0 (fun _ => 0) 1 rfl)
  refine CleanReach.step ?_ (CleanStep.node _ _ [0] 0 (-1) 0 (fun _ => 0) 1 rfl)
  refine CleanReach.step ?_ (CleanStep.node _ _ [0] 0 (-1) 0 (fun _ => 0) 1 rfl)
  exact CleanReach.empty id 100 5 1 10 (1/2) 0 true false false false true 1

theorem Cpp.cppEx_clean {k : ℕ} (h : (cppEx0.mainLoop (fun _ W => W.seqSched) k).2 = none) :
    CleanReach (cppEx k) :=
  CleanReach.step cppEx0_clean (CleanStep.run _ _ k _ seqSched_valid (Prod.ext rfl h))

/-- The example run: after eight time steps vehicles are on both links and the counts are not trivial. -/
theorem C82_case : CleanReach (cppEx 8) ∧ ExactCounts (cppEx 8).g ∧
    Balanced (cppEx 8) 0 ∧ CurvesOK (cppEx 8) 1 ∧ (cppEx 8).g.timestep = 8 ∧
    ((cppEx 8).link 0).arr 7 = 20 ∧ ((cppEx 8).link 0).dep 7 = 15 := by
  have hr : CleanReach (cppEx 8) := cppEx_clean (by decide +kernel)
  have hx : ExactCounts (cppEx 8).g :=
    ExactCounts.of_fix (cppEx0_reach.rest.mainFix seqSched_valid 8).symm (fun _ => rfl)
  exact ⟨hr, hx, C82_balance hr hx (by decide +kernel), C82_curves hr hx (by decide +kernel),
    by decide +kernel, by decide +kernel, by decide +kernel⟩

end UX
