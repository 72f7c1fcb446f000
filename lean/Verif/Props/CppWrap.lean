import Verif.Props.CppWrapExample
import Verif.Proofs.CppWrap

/-!
# C108: the registries of the Python side of the C++ engine
-/

namespace UX
open Cpp Cpp.CWorld Cpp.Spec

/-- **C108.** `VEHICLES` holds every vehicle of the engine once, under its own name. No two vehicles have the same
name, and the ids are 0, 1, 2, … -/
theorem C108_vehicles {W : Wrap} (h : WReach NotNumber W) :
    W.names.length = W.c.g.nVehs ∧ W.ids = List.range W.c.g.nVehs ∧ Distinct W.names ∧
      Holds W.names (fun _ => True) W.vehs :=
  have i := h.inv
  ⟨i.len, by rw [← i.len]; exact i.ok.ids, i.ok.distinct, i.ok.vehs⟩

/-- **C108.** `VEHICLES_LIVING` holds exactly the vehicles whose trip is not over. -/
theorem C108_living {W : Wrap} (h : WReach NotNumber W) : Holds W.names (fun v => ¬ Over W.c v) W.living :=
  h.inv.living

/-- **C108.** `VEHICLES_RUNNING` holds exactly the vehicles that are on a link. -/
theorem C108_running {W : Wrap} (h : WReach NotNumber W) :
    Holds W.names (fun v => (W.c.veh v).state = .run) W.running := h.inv.running

/-- **C108.** In exact arithmetic a call of `addVehicle` with a name not in use makes one vehicle. It departs at the
last time step not after the given time, has the given name (or its number), and is the last one in `VEHICLES`. -/
theorem C108_one {W : Wrap} (h : WReach NotNumber W) (hfl : W.c.g.fl = id) (hdt : 0 < W.c.g.deltaT)
    (hdn : 0 < W.c.g.deltaN) {t : ℚ} (ht : 0 ≤ t) {orig dest : ℕ} {prefer : List ℕ} {name : Option String} {fuel : ℕ}
    (hf : 2 ≤ fuel) (hn : ∀ s, name = some s → NotNumber s ∧ s ∉ W.names) :
    ∃ W', W.addVehicle t orig dest prefer name fuel = some (.ok W') ∧
      W'.c = W.c.addVehicle (⌊t / W.c.g.deltaT⌋ * W.c.g.deltaT) orig dest prefer ∧
      W'.names = W.names ++ [name.getD (toString W.c.g.nVehs)] ∧
      W'.vehs = W.vehs ++ [(name.getD (toString W.c.g.nVehs), W.c.g.nVehs)] :=
  h.inv.one hfl hdt hdn ht hf hn

/-- **C108.** A name in use is refused. -/
theorem C108_used {W : Wrap} (h : WReach NotNumber W) {s : String} (hs : s ∈ W.names) (t : ℚ) (orig dest : ℕ)
    (prefer : List ℕ) (fuel : ℕ) : W.addVehicle t orig dest prefer (some s) fuel = some (.error .valueError) := by
  have i := h.inv
  obtain ⟨k, hk, e⟩ := List.getElem_of_mem hs
  have hm : (s, k) ∈ W.vehs := (i.ok.vehs.mem s k).2 ⟨by rw [List.getElem?_eq_getElem hk, e], trivial⟩
  unfold Wrap.addVehicle Wrap.nameUsed
  rw [if_pos]
  simp only [decide_eq_true_eq, List.mem_map]
  exact ⟨_, hm, rfl⟩

/-- Three vehicles, one of them named "truck", in the middle of the simulation. -/
def wDemo : List WCmd := wRoad ++ [.vehicle 0 0 2 none, .vehicle 7 0 2 (some "truck"), .vehicle 80 0 2 none,
  .exec (.untilT 30)]

theorem wDemo_named : ∀ c ∈ wDemo, c.Named NotNumber := by
  intro c hc
  rcases List.mem_append.1 hc with h | h
  · exact wRoad_named _ c h
  · simp only [List.mem_cons, List.not_mem_nil, or_false] at h
    rcases h with rfl | rfl | rfl | rfl <;> try trivial
    exact notNumber_of_char (c := 't') (by decide) (by decide)

/-- A concrete case: three vehicles after 35 s. The first one arrived, the second one is on its way, the third one is
at home. -/
theorem C108_case : ∃ W, WReach NotNumber W ∧ W.c.g.fl = id ∧ 0 < W.c.g.deltaT ∧ 0 < W.c.g.deltaN ∧ W.T = 7 ∧
    W.names = ["0", "truck", "2"] ∧ W.vehs = [("0", 0), ("truck", 1), ("2", 2)] ∧
    W.living = [("truck", 1), ("2", 2)] ∧ W.running = [("truck", 1)] := by
  have h : wObs (wRun (wNew id 100 5 1) wDemo) (fun W => decide (0 < W.c.g.deltaT ∧ 0 < W.c.g.deltaN ∧ W.T = 7 ∧
    W.names = ["0", "truck", "2"] ∧ W.vehs = [("0", 0), ("truck", 1), ("2", 2)] ∧
    W.living = [("truck", 1), ("2", 2)] ∧ W.running = [("truck", 1)])) = true := by decide +kernel
  obtain ⟨W, e, h1⟩ := wObs_ok h
  have r := wRun_reach (wNew_reach NotNumber id 100 5 1) wDemo_named e
  exact ⟨W, r, (wRun_fl (wNew_reach _ _ _ _ _) wDemo_named e).trans rfl, of_decide_eq_true h1⟩

/-- **C108** fails for names that are numbers: the vehicle that gets this number later takes the name, and the first
one is no longer in `VEHICLES`. -/
theorem C108_names_false : ∃ W, WReach (fun _ => True) W ∧ W.c.g.fl = id ∧ W.c.g.nVehs = 2 ∧ W.names = ["1", "1"] ∧
    W.vehs = [("1", 1)] ∧ W.living = [("1", 1)] := by
  have h : wObs (wRun (wNew id 100 5 1) (wRoad ++ [.vehicle 0 0 2 (some "1"), .vehicle 0 0 2 none]))
    (fun W => decide (W.c.g.nVehs = 2 ∧ W.names = ["1", "1"] ∧ W.vehs = [("1", 1)] ∧ W.living = [("1", 1)])) = true := by
    decide +kernel
  obtain ⟨W, e, h1⟩ := wObs_ok h
  have r := wRun_reach (wNew_reach (fun _ => True) id 100 5 1)
    (fun c _ => by unfold WCmd.Named; split <;> trivial) e
  exact ⟨W, r, (wRun_fl' (fun c hc u hu => by subst hu; simp [wRoad] at hc) e).trans rfl, of_decide_eq_true h1⟩

/-- **C108** fails with rounding: one call of `addVehicle` can make two vehicles. -/
theorem C108_two_false : ∃ W W' : Wrap, WReach NotNumber W ∧ FlOK W.c.g.fl ∧ W.c.g.nVehs = 0 ∧
    W.addVehicle (18/5) 0 2 [] (some "car") 10 = some (.ok W') ∧ W'.c.g.nVehs = 2 ∧
    W'.vehs = [("1", 1), ("car", 0)] := by
  have h : wObs (wRun (wNew coarse 100 4 1) wRoad) (fun W => decide (W.c.g.nVehs = 0) &&
      (match W.addVehicle (18/5) 0 2 [] (some "car") 10 with
        | some (.ok W') => decide (W'.c.g.nVehs = 2 ∧ W'.vehs = [("1", 1), ("car", 0)])
        | _ => false)) = true := by decide +kernel
  obtain ⟨W, e, h1⟩ := wObs_ok h
  have r := wRun_reach (wNew_reach NotNumber coarse 100 4 1) (wRoad_named _) e
  rw [Bool.and_eq_true] at h1
  have h2 := h1.2
  split at h2
  · rename_i W' hW'
    exact ⟨W, W', r, by rw [wRun_fl (wNew_reach _ _ _ _ _) (wRoad_named _) e]; exact coarse_ok, of_decide_eq_true h1.1, hW', of_decide_eq_true h2⟩
  · cases h2

/-- **C108** fails with rounding: a call of `addVehicle` can make no vehicle and end with `IndexError`. -/
theorem C108_none_false : ∃ W : Wrap, WReach NotNumber W ∧ FlOK W.c.g.fl ∧ 0 < W.c.g.nNodes ∧ 2 < W.c.g.nNodes ∧
    W.addVehicle 0 0 2 [] none 10 = some (.error .indexError) := by
  have h : wObs (wRun (wNew coarse 100 1 3) wRoad) (fun W => decide (0 < W.c.g.nNodes ∧ 2 < W.c.g.nNodes) &&
      (match W.addVehicle 0 0 2 [] none 10 with
        | some (.error .indexError) => true
        | _ => false)) = true := by decide +kernel
  obtain ⟨W, e, h1⟩ := wObs_ok h
  have r := wRun_reach (wNew_reach NotNumber coarse 100 1 3) (wRoad_named _) e
  rw [Bool.and_eq_true] at h1
  have h2 := h1.2
  have h3 := of_decide_eq_true h1.1
  split at h2
  · rename_i hW'
    exact ⟨W, r, by rw [wRun_fl (wNew_reach _ _ _ _ _) (wRoad_named _) e]; exact coarse_ok, h3.1, h3.2, hW'⟩
  · cases h2

end UX
