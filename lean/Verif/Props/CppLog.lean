import Verif.Proofs.CppLogRun
import Verif.Props.CppKin

/-!
# C89: vehicle logs of the C++ engine
-/

namespace UX
open Cpp Cpp.Spec Cpp.CWorld

/-- **C89.** The times and states that `log_t_at` and `log_state_at` reconstruct are those of the time step in
which each entry was made. -/
theorem C89_eager {W : CWorld} (h : CleanReach W) (hl : W.g.logMode = true) (hm : Monotone W.g.fl)
    (hdt : 0 ≤ W.g.deltaT) {v : ℕ} (hv : v < W.g.nVehs) : Reads W v (W.veh v).eager :=
  (h.logs hm hdt hl v hv).reads.1

/-- **C89.** The log has one entry for every time step since departure: at home, waiting, on the road, and
one entry for the end of the trip. -/
theorem C89_life {W : CWorld} (h : CleanReach W) (hl : W.g.logMode = true) (hm : Monotone W.g.fl)
    (hdt : 0 ≤ W.g.deltaT) {v : ℕ} (hv : v < W.g.nVehs) : TellsLife W v :=
  (h.logs hm hdt hl v hv).tells

/-- **C89.** An entry names a link exactly if it is one of a time step on the road. -/
theorem C89_links {W : CWorld} (h : CleanReach W) (hl : W.g.logMode = true) (hm : Monotone W.g.fl)
    (hdt : 0 ≤ W.g.deltaT) {v : ℕ} (hv : v < W.g.nVehs) : LinksWhenRunning W v :=
  (h.logs hm hdt hl v hv).reads.2

/-- **C89.** In exact arithmetic `n_missing`, the number of entries that the Python side puts before the log,
is the time step of the first entry. -/
theorem C89_missing {W : CWorld} (h : CleanReach W) (hl : W.g.logMode = true) (hid : W.g.fl = id)
    (hdt : 0 < W.g.deltaT) {v : ℕ} (hv : v < W.g.nVehs) {p : ℕ × VState} {t : List (ℕ × VState)}
    (he : (W.veh v).eager = p :: t) : W.nMissing v = p.1 := by
  have hr := C89_eager h hl (by rw [hid]; exact monotone_id) hdt.le hv
  unfold Reads readLog at hr
  rw [he] at hr
  have hlen : (W.veh v).log.length = t.length + 1 := by
    have := congrArg List.length hr
    simpa using this
  rw [hlen, List.range_succ_eq_map] at hr
  simp only [List.map_cons, List.cons.injEq, Prod.mk.injEq] at hr
  have h0 := hr.1.1
  unfold clockAt at h0
  rw [hid] at h0
  unfold CWorld.nMissing
  rw [hid, h0]
  have hne : (W.veh v).log ≠ [] := fun e => by rw [e] at hlen; simp at hlen
  simp only [id]
  by_cases hp : p.1 = 0
  · rw [hp]; simp
  · have hpos : (0 : ℚ) < (p.1 : ℚ) := by exact_mod_cast Nat.pos_of_ne_zero hp
    rw [if_pos ⟨hne, mul_pos hpos hdt⟩, mul_div_assoc, div_self hdt.ne', mul_one]
    unfold pyInt
    rw [if_pos hpos.le]
    simp

/-- At time step 10 of the example vehicle 1 has waited two time steps, been on the road for six and
arrived; vehicle 2 is on the road. -/
theorem C89_case : CleanReach (cppSig 10) ∧ (cppSig 10).g.logMode = true ∧ (cppSig 10).g.deltaT = 5 ∧
    ((cppSig 10).veh 1).eager = life 0 2 6 ++ [(8, .ended)] ∧ ((cppSig 10).veh 2).eager = life 1 3 5 ∧
    (cppSig 10).nMissing 2 = 1 := by
  exact ⟨(cppSig_steady (by decide +kernel)).toClean, by decide +kernel, by decide +kernel,
    by decide +kernel, by decide +kernel, by decide +kernel⟩

end UX
