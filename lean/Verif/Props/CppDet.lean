import Verif.Proofs.CppDetReach
import Verif.Props.CppPrefs

/-!
# C103: the deterministic mode of the C++ engine
-/

namespace UX
open Cpp Cpp.Spec Cpp.CWorld

variable {W V : CWorld}

/-- **C103.** In deterministic mode two worlds built and run by the same calls are equal up to their random
streams, whatever these and the orders of parallel iterations are. -/
theorem C103_same (h : Twins W V) (hd : W.g.hardDet = true) : SameButRng W V := by
  obtain ⟨_, _, a, b, rfl⟩ := h.rho hd
  exact SameButRng.rho W a b

/-- **C103.** So are their runs, which throw the same exceptions. -/
theorem C103_run (h : Twins W V) (hd : W.g.hardDet = true) {s s' : ℕ → CWorld → Sched}
    (hs : ∀ t V, (s t V).Valid V) (hs' : ∀ t V, (s' t V).Valid V) (endTs : ℕ) :
    SameButRng (W.mainLoop s endTs).1 (V.mainLoop s' endTs).1 ∧
      (V.mainLoop s' endTs).2 = (W.mainLoop s endTs).2 := by
  obtain ⟨a, b, c⟩ := h.rho hd
  obtain ⟨⟨x, y, e⟩, e'⟩ := a.run_rho b hd c hs hs' endTs
  rw [e]
  exact ⟨SameButRng.rho _ x y, e'⟩

/-- **C103.** In deterministic mode a run draws no random number. -/
theorem C103_unused (h : CReach W) (hd : W.g.hardDet = true) {s : ℕ → CWorld → Sched} (hs : ∀ t V, (s t V).Valid V)
    (endTs n : ℕ) : ((W.mainLoop s endTs).1.node n).rng = (W.node n).rng ∧
      ((W.mainLoop s endTs).1.link n).rng = (W.link n).rng := by
  rw [C80_order h hs seqSched_valid endTs]
  have e := rho_mainLoop (a := fun n => (W.node n).rng) (b := fun l => (W.link l).rng) W hd endTs
  rw [rho_self] at e
  have e1 := congrArg Prod.fst e
  simp only at e1
  exact ⟨by rw [e1]; rfl, by rw [e1]; rfl⟩

/-! ## Concrete cases -/

namespace Cpp

/-- Two links 0 → 1 and one vehicle; all random numbers are `c`. -/
def cppLot0 (hard : Bool) (c : ℕ) : CWorld :=
  let W0 := CWorld.empty id 200 5 1 10 (1/2) 0 hard false true false true 1
  let W1 := (W0.addNodeWith (0, 0) [0] 0 (-1) 0 (fun _ => c)).addNodeWith (0, 0) [0] 0 (-1) 0 (fun _ => c)
  let W2 := (W1.addLink 0 1 cppRowArgs).addLink 0 1 { cppRowArgs with rng := fun _ => c }
  (W2.addVehicle 0 0 1 []).initAdj

def cppLot (hard : Bool) (c k : ℕ) : CWorld := ((cppLot0 hard c).mainLoop (fun _ W => W.seqSched) k).1

theorem cppLot0_reach (hard : Bool) (c : ℕ) : Twins (cppLot0 hard 0) (cppLot0 hard c) := by
  refine Twins.init ?_
  refine Twins.vehicle 0 0 1 [] ?_ (show 0 < 2 by decide) (show 1 < 2 by decide)
  refine Twins.link 0 1 { cppRowArgs with rng := fun _ => 0 } (fun _ => c) ?_ (show 0 < 2 by decide)
    (show 1 < 2 by decide) (by decide) (fun v hv => absurd hv (Nat.not_lt_zero v))
  refine Twins.link 0 1 cppRowArgs cppRowArgs.rng ?_ (show 0 < 2 by decide) (show 1 < 2 by decide) (by decide)
    (fun v hv => absurd hv (Nat.not_lt_zero v))
  refine Twins.node [0] 0 (-1) 0 (fun _ => 0) (fun _ => c) 1 ?_ rfl rfl
  refine Twins.node [0] 0 (-1) 0 (fun _ => 0) (fun _ => c) 1 ?_ rfl rfl
  exact Twins.empty id 200 5 1 10 (1/2) 0 hard false true false true 1

theorem cppLot_reach (hard : Bool) (c k : ℕ) : Twins (cppLot hard 0 k) (cppLot hard c k) :=
  Twins.run k _ _ (cppLot0_reach hard c) seqSched_valid seqSched_valid

end Cpp

/-- Streams of zeros and streams of largest numbers: the vehicle is on link 0 with both. -/
theorem C103_case : Twins (cppLot true 0 3) (cppLot true (2 ^ 53 - 1) 3) ∧ (cppLot true 0 3).g.hardDet = true ∧
    ((cppLot true 0 3).veh 0).link = some 0 ∧ ((cppLot true (2 ^ 53 - 1) 3).veh 0).link = some 0 ∧
    ((cppLot true (2 ^ 53 - 1) 3).node 0).rng ≠ ((cppLot true 0 3).node 0).rng := by
  refine ⟨cppLot_reach true _ 3, by decide +kernel, by decide +kernel, by decide +kernel, fun h => ?_⟩
  have := congrFun h 0
  exact absurd this (by decide +kernel)

/-- Without the mode the streams matter: with the same calls the vehicle is on link 0 or on link 1. -/
theorem C103_mode_false : ¬ ∀ (W V : CWorld), Twins W V → SameButRng W V := by
  intro h
  have := (h _ _ (cppLot_reach false (2 ^ 53 - 1) 3)).veh 0
  have := congrArg CVeh.link this
  exact absurd this (by decide +kernel)

end UX
