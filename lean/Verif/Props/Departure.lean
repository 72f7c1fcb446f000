import Verif.Props.TimeSpace
import Verif.Proofs.Areas

/-! # C75: departure times in seconds -/

namespace UX
open World

/-- The departure time in seconds is that of the departure step, for every vehicle. -/
def DepOK (W : World) : Prop := ∀ v < W.nVeh, W.V.depSec v = W.cfg.fl (W.V.depTime v * W.dt)

/-- C75: a vehicle added by time step departs in that step, and its departure time in seconds is that of the step. -/
theorem C75_step {W W' : World} {a : VehArgs} {k : ℤ} (hk : a.dep = .step k) (h : W.addVehicle a = .ok W') :
    W'.nVeh = W.nVeh + 1 ∧ W'.V.depTime W.nVeh = k ∧ W'.V.depSec W.nVeh = W.cfg.fl (k * W.dt) := by
  obtain ⟨o, d, dep, pref, cache, lp, la, nm, -, -, hd, -, -, -, -, -, rfl⟩ := addVehicle_ok h
  rw [hk] at hd
  dsimp only at hd
  subst hd
  refine ⟨rfl, by simp [addVehRes], ?_⟩
  simp [addVehRes, hk, DepTime.arg, World.fl]

/-- C75: neither ever changes. -/
theorem C75_fixed {W W' : World} (hr : Reachable Any W) (h : ApiStep W W') {v : VehId} (hv : v < W.nVeh) :
    W'.V.depTime v = W.V.depTime v ∧ W'.V.depSec v = W.V.depSec v := by
  rcases h.kinds with ⟨-, a, ph, t, soff, -, rfl⟩ | ⟨-, a, h⟩ | ⟨a, h⟩ | ⟨-, tmax, rfl⟩ | ⟨hf, -, h⟩ | h | h
  · exact ⟨rfl, rfl⟩
  · obtain ⟨_, _, _, _, _, -, -, -, -, -, -, rfl⟩ := addLink_ok h
    exact ⟨rfl, rfl⟩
  · obtain ⟨o, d, dep, pref, cache, lp, la, nm, -, -, -, -, -, -, -, -, rfl⟩ := addVehicle_ok h
    have hne : v ≠ W.nVeh := Nat.ne_of_lt hv
    simp [addVehRes, upd_ne _ _ hne]
  · obtain ⟨ts, tta, fc, fr, la, hr⟩ := finalize_frame W tmax
    rw [hr]
    exact ⟨rfl, rfl⟩
  · obtain ⟨W0, h0, rfl⟩ := tick_ok h
    obtain ⟨W1, W2, W3, W4, W5, W6, hp, rfl⟩ := step_phases (hr.inv.core hf) h0
    have hst := ((((hp.s1.static.trans hp.s2.static).trans hp.s3.static).trans hp.s4.static).trans hp.s5.static).trans
      hp.s6.static
    exact ⟨congrFun hst.depTime v, congrFun hst.depSec v⟩
  · have := h.static
    rw [this.depTime, this.depSec]
    exact ⟨rfl, rfl⟩
  · obtain ⟨_, _, _, _, _, _, _, _, _, _, _, _, _, _, _, _, _, _, _, rfl, -⟩ := h
    exact ⟨rfl, rfl⟩

theorem DepOK.addVehicle {W W' : World} {a : VehArgs} {k : ℤ} (hW : DepOK W) (hk : a.dep = .step k)
    (h : W.addVehicle a = .ok W') : DepOK W' ∧ W'.dt = W.dt ∧ W'.cfg = W.cfg := by
  obtain ⟨e1, e2, e3⟩ := C75_step hk h
  obtain ⟨o, d, dep, pref, cache, lp, la, nm, -, -, -, -, -, -, -, -, rfl⟩ := addVehicle_ok h
  refine ⟨fun v hv => ?_, rfl, rfl⟩
  rw [e1] at hv
  rcases Nat.lt_or_eq_of_le (Nat.lt_succ_iff.1 hv) with hv | rfl
  · have hne : v ≠ W.nVeh := Nat.ne_of_lt hv
    have := hW v hv
    simp only [addVehRes, upd_ne _ _ hne]
    exact this
  · rw [e2, e3]
    rfl

theorem DepOK.while {o d : Ref} {t : ℤ} : ∀ {k : ℕ} {W W' : World} {f f' : ℚ}, DepOK W →
    demandWhile o d t k W f = .ok (W', f') → DepOK W'
  | 0, W, W', f, f', hW, h => by
    unfold demandWhile at h
    split at h
    · cases h
    · simp only [Except.ok.injEq, Prod.mk.injEq] at h
      rw [← h.1]; exact hW
  | k + 1, W, W', f, f', hW, h => by
    unfold demandWhile at h
    split at h
    · split at h
      · rename_i W1 h1
        exact DepOK.while (hW.addVehicle rfl h1).1 h
      · cases h
    · simp only [Except.ok.injEq, Prod.mk.injEq] at h
      rw [← h.1]; exact hW

theorem DepOK.loop {o d : Ref} {q : ℚ} : ∀ {ts : List ℤ} {W W' : World} {f f' : ℚ}, DepOK W →
    demandLoop o d q ts W f = .ok (W', f') → DepOK W'
  | [], W, W', f, f', hW, h => by
    simp only [demandLoop, Except.ok.injEq, Prod.mk.injEq] at h
    rw [← h.1]; exact hW
  | t :: ts, W, W', f, f', hW, h => by
    unfold demandLoop at h
    dsimp only at h
    split at h
    · rename_i h1
      exact DepOK.loop (hW.while h1) h
    · cases h

/-- C75: demand makes vehicles with the right departure times in seconds. -/
theorem C75_demand {W W' : World} {o d : Ref} {t0 t1 q vol : ℚ} (hW : DepOK W)
    (h : W.addDemand o d t0 t1 q vol = .ok W') : DepOK W' := by
  have key : ∀ q', (do
      let (W', _) ← demandLoop o d q' (pyRange (pyInt (W.fl (t0 / W.dt))) (pyInt (W.fl (t1 / W.dt)))) W 0
      pure W' : M World) = .ok W' → DepOK W' := by
    intro q' h
    rw [bind_ok] at h
    obtain ⟨⟨W1, f⟩, h1, h⟩ := h
    dsimp only at h
    rw [pure_ok] at h
    subst h
    exact hW.loop h1
  unfold addDemand at h
  dsimp only at h
  split at h
  · rw [bind_ok] at h
    obtain ⟨q', -, h⟩ := h
    exact key q' h
  · rw [bind_ok] at h
    obtain ⟨q', -, h⟩ := h
    exact key q' h

set_option maxRecDepth 100000 in
/-- The hypothesis of `C75_demand` is met by a world with a vehicle, and demand adds more. -/
example : obs (runCmds demoCfg (fun _ => 0) [.node { name := "a" }, .node { name := "b" },
    .link { startN := .obj 0, endN := .obj 1, length := 200 },
    .veh { orig := .obj 0, dest := some (.obj 1), dep := .step 3 }]) (fun W =>
    decide (∀ v ∈ List.range W.nVeh, W.V.depSec v = W.cfg.fl (W.V.depTime v * W.dt)) &&
    obs (W.addDemand (.obj 0) (.obj 1) 0 20 1 0) (fun W => decide (W.nVeh = 5 ∧ W.V.depSec 0 = 15 ∧ W.V.depSec 4 = 15))) =
      true := by decide +kernel

set_option maxRecDepth 100000 in
/-- C75: for a departure time given in seconds (as `addVehicle` expects) this is false: 10 becomes 50. -/
theorem C75_seconds_false : ∃ W, Reachable Any W ∧ W.cfg.fl = id ∧ W.dt = 5 ∧ W.V.depTime 1 = 2 ∧ W.V.depSec 1 = 50 ∧
    ¬ DepOK W := by
  have h : obs (runCmds demoCfg (fun _ => 0) tsnDemo) (fun W =>
      decide (W.cfg.deltat = 5 ∧ W.V.depTime 1 = 2 ∧ W.V.depSec 1 = 50 ∧ 1 < W.nVeh)) = true := by decide +kernel
  obtain ⟨W, h1, h2⟩ := obs_ok h
  obtain ⟨a, b, c, d⟩ := of_decide_eq_true h2
  have hex : W.cfg.fl = id := by rw [runCmds_cfg h1]; rfl
  have hdt : W.dt = 5 := a
  refine ⟨W, runCmds_reachable h1, hex, hdt, b, c, fun hW => ?_⟩
  have := hW 1 d
  rw [c, b, hex, hdt] at this
  norm_num at this

end UX
