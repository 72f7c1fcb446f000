import Verif.Props.Stats
import Verif.Props.Alns

/-!
# What the objectives of the genetic and the neighbourhood search measure (C45, C46)
-/

namespace UX

/-- C45: the fitness of a simulated world is minus the travel time of the finished vehicles minus `TMAX`
for each vehicle with a destination that has not finished. If nobody has finished, the travel time
counts as -1. -/
theorem C45_objective {W : World} (h : Reachable Any W) (hfl : FlOK W.cfg.fl) (hdt : 0 ≤ W.dt) (tmax : ℚ) :
    (W.dn ≠ 0 → W.finished ≠ [] →
      gaFitness (Analyzer.new.basicAnalysis W) tmax =
        -(W.dn * ((W.finished.map W.V.travelTime).sum
          + ((W.withDest.length : ℚ) - W.finished.length) * tmax))) ∧
    (W.finished = [] → gaFitness (Analyzer.new.basicAnalysis W) tmax =
        1 - W.dn * W.withDest.length * tmax) := by
  have h1 := C36_all W Analyzer.new rfl
  have h2 := C36_completed h hfl hdt Analyzer.new rfl
  obtain ⟨h3, h4⟩ := C36_travel_time h hfl hdt Analyzer.new rfl
  refine ⟨fun hn hf => ?_, fun hf => ?_⟩
  · rw [gaFitness, h1, h2, (h3 hn hf).1]; push_cast; ring
  · rw [gaFitness, h1, h2, (h4 hf).1, hf]; push_cast; simp

/-- Of two worlds with the same demand in which everybody arrived, the fitter one is the one with the
smaller travel time. -/
theorem C45_objective_order {W X : World} (h : Reachable Any W) (hfl : FlOK W.cfg.fl) (hdt : 0 ≤ W.dt)
    (h' : Reachable Any X) (hfl' : FlOK X.cfg.fl) (hdt' : 0 ≤ X.dt) (hn : 0 < W.dn) (hn' : X.dn = W.dn)
    (hf : W.finished ≠ []) (hf' : X.finished ≠ []) (ha : W.finished.length = W.withDest.length)
    (ha' : X.finished.length = X.withDest.length) (tmax : ℚ) :
    gaFitness (Analyzer.new.basicAnalysis X) tmax < gaFitness (Analyzer.new.basicAnalysis W) tmax ↔
      (W.finished.map W.V.travelTime).sum < (X.finished.map X.V.travelTime).sum := by
  have hq : (0 : ℚ) < W.dn := by exact_mod_cast hn
  rw [(C45_objective h hfl hdt tmax).1 hn.ne' hf, (C45_objective h' hfl' hdt' tmax).1 (hn' ▸ hn.ne') hf',
    ha, ha', hn', neg_lt_neg_iff, mul_lt_mul_iff_right₀ hq]
  simp

/-- C46: the objective minimized by the neighbourhood search is the travel time of the finished
vehicles minus `TMAX` for each vehicle with a destination that has not finished. -/
theorem C46_objective {W : World} (h : Reachable Any W) (hfl : FlOK W.cfg.fl) (hdt : 0 ≤ W.dt) (tmax : ℚ)
    (hn : W.dn ≠ 0) (hf : W.finished ≠ []) :
    ALNS.objective (Analyzer.new.basicAnalysis W) tmax =
      W.dn * ((W.finished.map W.V.travelTime).sum
        - ((W.withDest.length : ℚ) - W.finished.length) * tmax) := by
  have h1 := C36_all W Analyzer.new rfl
  have h2 := C36_completed h hfl hdt Analyzer.new rfl
  obtain ⟨h3, -⟩ := C36_travel_time h hfl hdt Analyzer.new rfl
  rw [ALNS.objective, h1, h2, (h3 hn hf).1]; push_cast; ring

/-- A run with finished and unfinished vehicles. -/
example : obs (runCmds demoCfg (fun _ => 0) (statsDemo 8)) (fun W =>
    decide (W.finished ≠ []) && decide (W.finished.length < W.withDest.length) && decide (W.dn ≠ 0)) = true := by
  decide +kernel

end UX
