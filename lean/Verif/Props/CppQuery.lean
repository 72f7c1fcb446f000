import Verif.Model.CppQuery
import Verif.Props.CppFlow
import Verif.Props.CppSpeed
import Verif.Props.CppDta
import Verif.Props.CppTrace
import Mathlib.Algebra.Order.Floor.Semiring

/-! # C113: link queries of the C++ mode -/

namespace UX
open Cpp Cpp.Spec Cpp.CWorld

namespace Cpp

theorem timeIdx_lt {W : CWorld} (t : ℚ) {n : ℕ} (hn : 0 < n) : W.timeIdx t n < n := by
  unfold timeIdx
  dsimp only
  split
  · omega
  · omega

/-- The index of an earlier time is not larger. -/
theorem timeIdx_mono {W : CWorld} (hfl : W.g.fl = id) (hT : 0 < W.g.deltaT) {t0 t1 : ℚ} (h : t0 ≤ t1) (n : ℕ) :
    W.timeIdx t0 n ≤ W.timeIdx t1 n := by
  have hle : t0 / W.g.deltaT ≤ t1 / W.g.deltaT := by
    rw [div_le_div_iff_of_pos_right hT]; exact h
  have hi : pyInt (t0 / W.g.deltaT) ≤ pyInt (t1 / W.g.deltaT) := by
    unfold pyInt
    split
    · rw [if_pos (by linarith)]
      exact Int.floor_le_floor hle
    · rename_i h0
      split
      · rename_i h1
        have a : ⌈t0 / W.g.deltaT⌉ ≤ 0 := by rw [Int.ceil_le]; push_cast; linarith
        have b : 0 ≤ ⌊t1 / W.g.deltaT⌋ := Int.floor_nonneg.2 h1
        omega
      · exact Int.ceil_le_ceil hle
  unfold timeIdx
  rw [hfl]
  simp only [id]
  generalize pyInt (t0 / W.g.deltaT) = a at *
  generalize pyInt (t1 / W.g.deltaT) = b at *
  split_ifs <;> omega

/-- The index of a time is its time step, if there is such an entry. -/
theorem timeIdx_floor {W : CWorld} (hfl : W.g.fl = id) {t : ℚ} {n : ℕ} (h0 : 0 ≤ t / W.g.deltaT)
    (hn : ⌊t / W.g.deltaT⌋₊ < n) : W.timeIdx t n = ⌊t / W.g.deltaT⌋₊ := by
  unfold timeIdx
  rw [hfl]
  simp only [id, pyInt, if_pos h0]
  have hf : ⌊t / W.g.deltaT⌋ = (⌊t / W.g.deltaT⌋₊ : ℤ) := (Int.natCast_floor_eq_floor h0).symm
  rw [hf]
  split <;> split <;> omega

/-- A time before the end of time step `k` has an index below `k`. -/
theorem timeIdx_before {W : CWorld} (hfl : W.g.fl = id) (hT : 0 < W.g.deltaT) {t : ℚ} {k n : ℕ} (hk : 0 < k)
    (ht : t < k * W.g.deltaT) : W.timeIdx t n < k := by
  have hq : t / W.g.deltaT < k := by rwa [div_lt_iff₀ hT]
  have : pyInt (t / W.g.deltaT) < k := by
    unfold pyInt
    split
    · rw [Int.floor_lt]; exact_mod_cast hq
    · rename_i h0
      have a : ⌈t / W.g.deltaT⌉ ≤ 0 := by rw [Int.ceil_le]; push_cast; linarith
      omega
  unfold timeIdx
  rw [hfl]
  simp only [id]
  split <;> split <;> omega

end Cpp

section
variable {W : CWorld} (h : CleanReach W) (hfl : W.g.fl = id) (hT : 0 < W.g.deltaT) (hn : 0 ≤ W.g.deltaN)
  {l : ℕ} (hl : l < W.g.nLinks)
include h hfl hT hn hl

theorem Cpp.counts : ∃ A D : ℕ → ℕ, Monotone A ∧ Monotone D ∧ (∀ s, D s ≤ A s) ∧
    ∀ s, s < W.g.timestep → (W.link l).arr s = A s * W.g.deltaN ∧ (W.link l).dep s = D s * W.g.deltaN :=
  C82_curves h (fun k => by rw [hfl]; rfl) hl

/-- **C113.** For times before the end of the time steps made so far, also negative ones, the counts do
not decrease with time, and never more vehicles have left than entered. -/
theorem C113_past {t0 t1 : ℚ} (h01 : t0 ≤ t1) (h1 : t1 < W.g.timestep * W.g.deltaT)
    (hs : 0 < W.g.timestep) :
    W.arrivalCount l t0 ≤ W.arrivalCount l t1 ∧ W.departureCount l t0 ≤ W.departureCount l t1 ∧
      0 ≤ W.numVehiclesAt l t0 ∧ 0 ≤ W.inflowBetween l t0 t1 := by
  obtain ⟨A, D, hA, hD, hDA, hp⟩ := Cpp.counts h hfl hT hn hl
  have i1 := timeIdx_before (n := W.g.totalSteps) hfl hT hs h1
  have i01 := timeIdx_mono hfl hT h01 W.g.totalSteps
  have e0 := hp _ (lt_of_le_of_lt i01 i1)
  have e1 := hp _ i1
  have a : W.arrivalCount l t0 ≤ W.arrivalCount l t1 := by
    unfold arrivalCount
    split
    · exact le_refl _
    · rw [e0.1, e1.1]
      exact mul_le_mul_of_nonneg_right (by exact_mod_cast hA i01) hn
  refine ⟨a, ?_, ?_, ?_⟩
  · unfold departureCount
    split
    · exact le_refl _
    · rw [e0.2, e1.2]
      exact mul_le_mul_of_nonneg_right (by exact_mod_cast hD i01) hn
  · unfold numVehiclesAt arrivalCount departureCount
    rw [hfl]
    split
    · simp
    · rw [e0.1, e0.2, id, sub_nonneg]
      exact mul_le_mul_of_nonneg_right (by exact_mod_cast hDA _) hn
  · unfold inflowBetween
    rw [hfl]
    split
    · exact div_nonneg (sub_nonneg.2 a) (sub_nonneg.2 h01)
    · exact le_refl _

/-- **C113.** In the last time step made, `num_vehicles_t` is the present number of vehicles on the link. -/
theorem C113_now {t : ℚ} {k : ℕ} (hk : W.g.timestep = k + 1)
    (h0 : k * W.g.deltaT ≤ t) (h1 : t < (k + 1) * W.g.deltaT) : W.numVehiclesAt l t = W.numVehicles l := by
  obtain ⟨_, hs⟩ := h.flow (fun k => by rw [hfl]; rfl)
  have hq0 : (k : ℚ) ≤ t / W.g.deltaT := by rwa [le_div_iff₀ hT]
  have hq1 : t / W.g.deltaT < k + 1 := by rwa [div_lt_iff₀ hT]
  have hf : ⌊t / W.g.deltaT⌋₊ = k := by
    rw [Nat.floor_eq_iff (le_trans (by positivity) hq0)]
    exact ⟨hq0, hq1⟩
  have hi : W.timeIdx t W.g.totalSteps = k := by
    rw [timeIdx_floor hfl (le_trans (by positivity) hq0) (by rw [hf]; omega), hf]
  have := C82_balance h (fun k => by rw [hfl]; rfl) hl k hk.symm
  unfold numVehiclesAt arrivalCount departureCount numVehicles
  rw [if_neg (by omega), if_neg (by omega), hi, hfl, id, id, this]
  ring

/-- **C113.** At the end of the simulation the same holds for all times. -/
theorem C113_done (hs : W.g.timestep = W.g.totalSteps) {t0 t1 : ℚ} (h01 : t0 ≤ t1) :
    W.arrivalCount l t0 ≤ W.arrivalCount l t1 ∧ W.departureCount l t0 ≤ W.departureCount l t1 ∧
      0 ≤ W.numVehiclesAt l t0 ∧ 0 ≤ W.inflowBetween l t0 t1 ∧
      (W.g.totalSteps * W.g.deltaT ≤ t0 → W.numVehiclesAt l t0 = W.numVehicles l) := by
  obtain ⟨A, D, hA, hD, hDA, hp⟩ := Cpp.counts h hfl hT hn hl
  by_cases hz : W.g.totalSteps = 0
  · obtain ⟨⟨A', D', f⟩, _⟩ := h.flow (fun k => by rw [hfl]; rfl)
    have hv := f.empty (by omega) l
    simp [arrivalCount, departureCount, numVehiclesAt, inflowBetween, numVehicles, hz, hfl, hv]
  · have hpos : 0 < W.g.totalSteps := Nat.pos_of_ne_zero hz
    have i01 := timeIdx_mono hfl hT h01 W.g.totalSteps
    have e0 := hp (W.timeIdx t0 W.g.totalSteps) (by rw [hs]; exact timeIdx_lt t0 hpos)
    have e1 := hp (W.timeIdx t1 W.g.totalSteps) (by rw [hs]; exact timeIdx_lt t1 hpos)
    have a : W.arrivalCount l t0 ≤ W.arrivalCount l t1 := by
      unfold arrivalCount
      rw [if_neg hz, if_neg hz, e0.1, e1.1]
      exact mul_le_mul_of_nonneg_right (by exact_mod_cast hA i01) hn
    refine ⟨a, ?_, ?_, ?_, fun h0 => ?_⟩
    · unfold departureCount
      rw [if_neg hz, if_neg hz, e0.2, e1.2]
      exact mul_le_mul_of_nonneg_right (by exact_mod_cast hD i01) hn
    · unfold numVehiclesAt arrivalCount departureCount
      rw [if_neg hz, if_neg hz, hfl, e0.1, e0.2, id, sub_nonneg]
      exact mul_le_mul_of_nonneg_right (by exact_mod_cast hDA _) hn
    · unfold inflowBetween
      rw [hfl]
      split
      · exact div_nonneg (sub_nonneg.2 a) (sub_nonneg.2 h01)
      · exact le_refl _
    · have hi : W.timeIdx t0 W.g.totalSteps = W.g.totalSteps - 1 := by
        have hq : (W.g.totalSteps : ℚ) ≤ t0 / W.g.deltaT := by rwa [le_div_iff₀ hT]
        have hq0 : (0 : ℚ) ≤ t0 / W.g.deltaT := le_trans (by positivity) hq
        have hz : (W.g.totalSteps : ℤ) ≤ ⌊t0 / W.g.deltaT⌋ := by rw [Int.le_floor]; exact_mod_cast hq
        unfold timeIdx
        rw [hfl]
        simp only [id, pyInt, if_pos hq0]
        split_ifs <;> omega
      have := C82_balance h (fun k => by rw [hfl]; rfl) hl (W.g.totalSteps - 1) (by omega)
      unfold numVehiclesAt arrivalCount departureCount numVehicles
      rw [if_neg hz, if_neg hz, hi, hfl, id, id, this]
      ring

/-- **C113.** During the simulation the counts for a time step not yet made are 0: at the present time the
link seems to have been empty for ever. (In the Python engine they are the last counts.) -/
theorem C113_future {t : ℚ} (h0 : W.g.timestep * W.g.deltaT ≤ t) (hs : W.g.timestep < W.g.totalSteps) :
    W.arrivalCount l t = 0 ∧ W.departureCount l t = 0 ∧ W.numVehiclesAt l t = 0 := by
  obtain ⟨⟨A, D, f⟩, _⟩ := h.flow (fun k => by rw [hfl]; rfl)
  have hi : W.g.timestep ≤ W.timeIdx t W.g.totalSteps := by
    have hq : (W.g.timestep : ℚ) ≤ t / W.g.deltaT := by rwa [le_div_iff₀ hT]
    have hq0 : (0 : ℚ) ≤ t / W.g.deltaT := le_trans (by positivity) hq
    have hz : (W.g.timestep : ℤ) ≤ ⌊t / W.g.deltaT⌋ := by rw [Int.le_floor]; exact_mod_cast hq
    unfold timeIdx
    rw [hfl]
    simp only [id, pyInt, if_pos hq0]
    split <;> split <;> omega
  obtain ⟨e1, e2⟩ := f.fut l _ hl hi
  have hz : W.g.totalSteps ≠ 0 := by omega
  simp [arrivalCount, departureCount, numVehiclesAt, hz, e1, e2, hfl]

end

theorem Cpp.foldl_speed {W : CWorld} (hfl : W.g.fl = id) (q : List ℕ) (s : ℚ) :
    q.foldl (fun s v => W.g.fl (s + (W.veh v).v)) s = s + (q.map (fun v => (W.veh v).v)).sum := by
  induction q generalizing s with
  | nil => simp
  | cons v q ih =>
    rw [List.foldl_cons, ih, hfl]
    simp only [id, List.map_cons, List.sum_cons]
    ring

/-- **C113.** Where no vehicle is faster than its link allows (C99), `speed` is the mean speed of the vehicles
on the link and between 0 and the speed limit, `flow` times the length is `delta_n` times the sum of the
speeds, and `num_vehicles_queue` is at most `num_vehicles`. -/
theorem C113_state {W : CWorld} (hfl : W.g.fl = id) (hn : 0 ≤ W.g.deltaN) {l : ℕ} (hl : l < W.g.nLinks)
    (sl : Slow W) (hv : 0 ≤ (W.link l).vmax) (hlen : 0 < (W.link l).len) :
    0 ≤ W.linkSpeed l ∧ W.linkSpeed l ≤ (W.link l).vmax ∧
    W.linkFlow l * (W.link l).len = W.g.deltaN * ((W.link l).vehs.map (fun v => (W.veh v).v)).sum ∧
    0 ≤ W.numQueue l ∧ W.numQueue l ≤ W.numVehicles l := by
  have hsum : ∀ q : List ℕ, (∀ v ∈ q, 0 ≤ (W.veh v).v ∧ (W.veh v).v ≤ (W.link l).vmax) →
      0 ≤ (q.map (fun v => (W.veh v).v)).sum ∧
      (q.map (fun v => (W.veh v).v)).sum ≤ q.length * (W.link l).vmax := by
    intro q hq
    induction q with
    | nil => simp
    | cons v q ih =>
      obtain ⟨i1, i2⟩ := ih fun w hw => hq w (List.mem_cons_of_mem _ hw)
      obtain ⟨j1, j2⟩ := hq v List.mem_cons_self
      simp only [List.map_cons, List.sum_cons, List.length_cons]
      push_cast
      constructor <;> nlinarith
  obtain ⟨s1, s2⟩ := hsum _ (sl.veh l hl)
  refine ⟨?_, ?_, ?_, ?_, ?_⟩
  · unfold linkSpeed
    split
    · exact hv
    · rw [foldl_speed hfl, hfl, id, zero_add]
      positivity
  · unfold linkSpeed
    split
    · exact le_refl _
    · rename_i hne
      have hpos : (0 : ℚ) < (W.link l).vehs.length := by exact_mod_cast List.length_pos_of_ne_nil hne
      rw [foldl_speed hfl, hfl, id, zero_add, div_le_iff₀ hpos]
      linarith
  · unfold linkFlow linkDensity numVehicles linkSpeed
    split
    · rename_i he
      simp [he, hfl]
    · rename_i hne
      have hpos : ((W.link l).vehs.length : ℚ) ≠ 0 := by
        exact_mod_cast (List.length_pos_of_ne_nil hne).ne'
      rw [foldl_speed hfl, hfl]
      simp only [id, zero_add]
      field_simp
  · unfold numQueue
    rw [hfl, id]
    positivity
  · unfold numQueue numVehicles
    rw [hfl, id, id]
    refine mul_le_mul_of_nonneg_right ?_ hn
    exact_mod_cast List.length_filter_le _ _

/-- **C113.** `num_vehicles_queue` counts `delta_n` for each vehicle below the speed limit of the link; it is 0 exactly
if none is, and all vehicles exactly if all are. -/
theorem C113_queue {W : CWorld} (hfl : W.g.fl = id) (hn : 0 < W.g.deltaN) (l : ℕ) :
    (W.numQueue l = 0 ↔ ∀ v ∈ (W.link l).vehs, (W.link l).vmax ≤ (W.veh v).v) ∧
    (W.numQueue l = W.numVehicles l ↔ ∀ v ∈ (W.link l).vehs, (W.veh v).v < (W.link l).vmax) ∧
    W.numVehicles l - W.numQueue l =
      ((W.link l).vehs.map (fun v => if (W.link l).vmax ≤ (W.veh v).v then W.g.deltaN else 0)).sum := by
  unfold numQueue numVehicles
  rw [hfl]
  simp only [id]
  refine ⟨?_, ?_, ?_⟩
  · rw [mul_eq_zero, or_iff_left hn.ne', Nat.cast_eq_zero, List.length_eq_zero_iff, List.filter_eq_nil_iff]
    simp
  · rw [mul_left_inj' hn.ne', Nat.cast_inj, List.length_filter_eq_length_iff]
    simp
  · induction (W.link l).vehs with
    | nil => simp
    | cons v q ih =>
      simp only [List.map_cons, List.sum_cons, List.length_cons, List.filter_cons, decide_eq_true_eq]
      by_cases hv : (W.veh v).v < (W.link l).vmax
      · rw [if_pos hv, if_neg (not_le.2 hv), ← ih]
        simp only [List.length_cons]
        push_cast
        ring
      · rw [if_neg hv, if_pos (not_lt.1 hv), ← ih]
        push_cast
        ring

/-- **C113.** After a completed run that started at time 0 the counts at a time `t` before its end are those of
the vehicles that entered and left the link in time steps that began at `t` or before. -/
theorem C113_count {W W' : CWorld} (h : CleanReach W) (hfl : W.g.fl = id) (hT : 0 < W.g.deltaT) (h0 : W.g.timestep = 0)
    {sched : ℕ → CWorld → Sched} (hs : ∀ t V, (sched t V).Valid V) {endTs : ℕ}
    (hr : W.mainLoop sched endTs = (W', none)) :
    ∃ p, History W W' p ∧ ∀ l, l < W.g.nLinks → ∀ t, 0 ≤ t → t < W'.g.timestep * W.g.deltaT →
      W'.arrivalCount l t = ((into l p).filter (fun e => decide (e.time * W.g.deltaT ≤ t))).length * W.g.deltaN ∧
      W'.departureCount l t =
        ((outOf l p).filter (fun e => decide (e.time * W.g.deltaT ≤ t))).length * W.g.deltaN := by
  have hx : ExactCounts W.g := fun k => by rw [hfl]; rfl
  obtain ⟨p, hp, hc⟩ := C84_curves h hx hs hr
  have hW' : CleanReach W' := CleanReach.step h (CleanStep.run W W' endTs sched hs hr)
  have hfix := h.toReach.rest.mainFix hs endTs
  rw [hr] at hfix
  have hfl' : W'.g.fl = id := (CGlob.fix_fl hfix).trans hfl
  have hdt : W'.g.deltaT = W.g.deltaT := CGlob.fix_deltaT hfix
  obtain ⟨_, hle⟩ := hW'.flow (fun k => by rw [hfl']; rfl)
  refine ⟨p, hp, fun l hl t ht0 ht => ?_⟩
  have hq0 : 0 ≤ t / W'.g.deltaT := by rw [hdt]; positivity
  have hk : ⌊t / W'.g.deltaT⌋₊ < W'.g.timestep := by
    rw [Nat.floor_lt hq0, hdt, div_lt_iff₀ hT]; exact ht
  have hi := timeIdx_floor hfl' (n := W'.g.totalSteps) hq0 (by omega)
  obtain ⟨e1, e2⟩ := hc l hl ⌊t / W'.g.deltaT⌋₊ (by omega) hk
  have hz : W'.g.totalSteps ≠ 0 := by omega
  have ht : ∀ e : Pass, decide (e.time ≤ ⌊t / W'.g.deltaT⌋₊) = decide (e.time * W.g.deltaT ≤ t) := by
    intro e
    rw [decide_eq_decide, Nat.le_floor_iff hq0, hdt, le_div_iff₀ hT]
  have c1 : countIn W l = 0 := by simp [countIn, h0]
  have c2 : countOut W l = 0 := by simp [countOut, h0]
  unfold arrivalCount departureCount
  rw [if_neg hz, if_neg hz, hi, e1, e2, c1, c2]
  simp only [ht, zero_add, and_self]

/-- **C113.** `average_speed(t)` is the length over the actual travel time of C93, `average_density(t)` the
number of vehicles over the length and `average_flow(t)` the product. -/
theorem C113_average {W : CWorld} (h : CReach W) (hfl : W.g.fl = id) (hT : 0 < W.g.deltaT)
    (hn : 0 < W.g.totalSteps) {l : ℕ} (hl : l < W.g.nLinks) (t : ℚ) (hpos : 0 < linkTime W l t)
    (hlen : 0 < (W.link l).len) :
    W.averageSpeed l t * linkTime W l t = (W.link l).len ∧
    W.averageDensity l t * (W.link l).len = W.numVehiclesAt l t ∧
    W.averageFlow l t * linkTime W l t = W.numVehiclesAt l t := by
  have e := C93_time h hfl hT hn hl t
  unfold averageFlow averageSpeed averageDensity
  rw [e, if_pos hpos, hfl]
  simp only [id]
  refine ⟨?_, ?_, ?_⟩ <;> field_simp

/-- The hypotheses hold in a run of 11 of 40 time steps, where 4 platoons have entered the first link and 3
have left it. -/
theorem C113_case : CleanReach (cppSig 11) ∧ (cppSig 11).g.fl = id ∧ (cppSig 11).g.deltaT = 5 ∧
    (cppSig 11).g.timestep = 11 ∧ (cppSig 11).g.totalSteps = 40 ∧
    (cppSig 11).arrivalCount 0 54 = 20 ∧ (cppSig 11).departureCount 0 54 = 15 ∧
    (cppSig 11).numVehiclesAt 0 54 = 5 ∧ (cppSig 11).numVehicles 0 = 5 ∧
    (cppSig 11).averageSpeed 0 45 = 12 ∧ (cppSig 11).averageFlow 0 45 = 2 / 5 := by
  refine ⟨CleanReach.step cppSig0_clean (CleanStep.run _ _ 11 _ seqSched_valid (cppSig_run (by decide +kernel))),
    ?_, by decide +kernel, by decide +kernel, by decide +kernel, by decide +kernel, by decide +kernel,
    by decide +kernel, by decide +kernel, by decide +kernel, by decide +kernel⟩
  exact CGlob.fix_fl (cppSig0_clean.toReach.rest.mainFix seqSched_valid 11)

/-- The readings of `C113_state` in a run with a vehicle slower than the limit. -/
theorem C113_state_case : Slow (cppFast 5) ∧ (cppFast 5).linkSpeed 0 = 15 ∧ (cppFast 5).linkFlow 0 = 3 / 10 ∧
    (cppFast 5).numQueue 0 = 5 ∧ (cppFast 5).numVehicles 0 = 5 ∧ (cppFast 5).linkSpeed 1 = 10 := by
  obtain ⟨a, b, c, d, _, e, f, _, g, _⟩ := C99_case
  exact ⟨C99_slow a b c d e f g, by decide +kernel, by decide +kernel, by decide +kernel, by decide +kernel,
    by decide +kernel⟩

/-- **C113**, what does not hold: during the simulation the inflow up to the present time can be negative. -/
theorem C113_inflow_false : ¬ ∀ (W : CWorld) (l : ℕ) (t0 t1 : ℚ), CleanReach W → W.g.fl = id → 0 < W.g.deltaT →
    0 ≤ W.g.deltaN → l < W.g.nLinks → 0 ≤ t0 → t0 ≤ t1 → t1 ≤ W.g.timestep * W.g.deltaT →
    0 ≤ W.inflowBetween l t0 t1 := by
  intro H
  have := H (cppSig 11) 0 50 55 C113_case.1 C113_case.2.1 (by decide +kernel) (by decide +kernel) (by decide +kernel)
    (by norm_num) (by norm_num) (by decide +kernel)
  exact absurd this (by decide +kernel)

/-- **C113**, what does not hold: `average_speed` is not the length over the instantaneous travel time, as it is in
the Python engine. -/
theorem C113_speed_false : ¬ ∀ (W : CWorld) (l : ℕ) (t : ℚ), CleanReach W → W.g.fl = id → 0 < W.g.deltaT →
    l < W.g.nLinks → 0 ≤ t → t < W.g.timestep * W.g.deltaT → 0 < W.instantTime l t →
    W.averageSpeed l t = (W.link l).len / W.instantTime l t := by
  intro H
  have := H (cppSig 11) 0 45 C113_case.1 C113_case.2.1 (by decide +kernel) (by decide +kernel) (by norm_num)
    (by decide +kernel) (by decide +kernel)
  exact absurd this (by decide +kernel)

end UX
