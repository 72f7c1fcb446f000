import Verif.Props.CppDta
import Verif.Proofs.CppExt
import Verif.Proofs.CppPos

/-!
# C94: congestion externality in the C++ engine
-/

namespace UX
open Cpp Cpp.CWorld Cpp.Spec

section
variable {W : CWorld} (h : CReach W) (hfl : W.g.fl = id) (hT : 0 < W.g.deltaT)
include h hfl hT

/-- **C94.** The travel time used for a time step is not negative if those the link was created with are not. -/
theorem C94_record {l : ℕ} (hl : l < W.g.nLinks) (hp : ∀ x ∈ (W.link l).ttReal, 0 ≤ x) {i : ℕ}
    (hi : i < W.g.totalSteps) : 0 ≤ recordAt W l i := recordAt_nonneg h hfl hT hl hp hi

/-- **C94.** The externality of a link is the delay of the vehicles that enter after and while the congestion lasts. -/
theorem C94_value {l : ℕ} (hl : l < W.g.nLinks) (hp : ∀ x ∈ (W.link l).ttReal, 0 ≤ x) {i : ℕ}
    (hi : i < W.g.totalSteps) : Charged W l i (W.extLink l i) :=
  extLink_charged h hfl hT hl (fun _ hi => recordAt_nonneg h hfl hT hl hp hi) hi

/-- **C94.** A vehicle that meets no congestion is charged nothing. -/
theorem C94_free {l : ℕ} (hl : l < W.g.nLinks) (hp : ∀ x ∈ (W.link l).ttReal, 0 ≤ x) {i : ℕ}
    (hi : i < W.g.totalSteps) (hc : ¬ Congested W l i) : W.extLink l i = 0 := by
  obtain ⟨j, out, k, _, hj, _, _, _, hx⟩ := C94_value h hfl hT hl hp hi
  rw [hx, hj hc, sub_self, mul_zero]

omit hT in
/-- **C94.** After the last time step nothing is charged. -/
theorem C94_late {l : ℕ} (hl : l < W.g.nLinks) {i : ℕ} (hi : W.g.totalSteps ≤ i) : W.extLink l i = 0 := by
  have hlen : (W.link l).ensureTT.ttReal.length = W.g.totalSteps := by
    rw [ensureTT_length]; exact h.ttFresh.len l hl
  unfold extLink
  simp only [hlen]
  rw [if_neg (show ¬ (i < W.g.totalSteps ∧ _) by omega), hfl]
  simp

/-- **C94.** The cost of a route in the assignment for the system is its time plus the externalities of its links at the
times at which they are entered. -/
theorem C94_dso (hn : 0 < W.g.totalSteps) {ls : List ℕ} (hls : ∀ l ∈ ls, l < W.g.nLinks) (t : ℚ) :
    W.costDso ls t =
      total (linkTime W) (fun l s => linkTime W l s + W.extLink l ⌊s / W.g.deltaT⌋₊) ls t := by
  have e : ∀ l ∈ ls, ∀ t, W.dtaTime l t = linkTime W l t := fun l hl t => dtaTime_eq h hfl hT (hls l hl) hn t
  unfold costDso
  rw [costLoop_eq hfl, zero_add, zero_add]
  refine total_congr e (fun l hl s => ?_) t
  rw [e l hl, hfl, id, pyInt_toNat']

/-- **C94.** This is the time of the route plus the externality of the route, however long the route takes. -/
theorem C94_route (hn : 0 < W.g.totalSteps) {ls : List ℕ} (hls : ∀ l ∈ ls, l < W.g.nLinks)
    (hp : ∀ l ∈ ls, 0 ≤ (W.link l).len / (W.link l).vmax ∧ ∀ x ∈ (W.link l).ttReal, 0 ≤ x) (t : ℚ) :
    W.costDso ls t = (W.routeTime ls t 0).1 + W.extRoute ls t 0 := by
  have e : ∀ l ∈ ls, ∀ t, W.dtaTime l t = linkTime W l t := fun l hl t => dtaTime_eq h hfl hT (hls l hl) hn t
  rw [C94_dso h hfl hT hn hls, routeTime_eq hfl, zero_add, total_congr e e]
  rw [total_add, extRoute_eq hfl, zero_add]
  congr 1
  have hlen : ∀ l ∈ ls, (W.link l).ensureTT.ttReal.length = W.g.totalSteps := fun l hl => by
    rw [ensureTT_length]; exact h.ttFresh.len l (hls l hl)
  have hst : ∀ l ∈ ls, ∀ t, linkTime W l t = recordAt W l (min ⌊t / W.g.deltaT⌋₊ (W.g.totalSteps - 1)) := fun l hl t => by
    unfold linkTime stepIn; rw [h.ttFresh.len l (hls l hl)]
  refine total_late (T := W.g.totalSteps * W.g.deltaT) (fun l hl t => ?_) (fun l hl t => ?_) (fun l hl t ht => ?_)
    (fun l hl t ht => ?_) t
  · rw [hst l hl]
    exact recordAt_nonneg h hfl hT (hls l hl) (hp l hl).2 (by omega)
  · beta_reduce
    split
    · rename_i hi
      rw [hlen l hl] at hi
      rw [ensure_getD h hfl hT (hls l hl) hi]
      exact recordAt_nonneg h hfl hT (hls l hl) (hp l hl).2 hi
    · exact (hp l hl).1
  · have hi : ⌊t / W.g.deltaT⌋₊ < W.g.totalSteps := by
      by_cases h0 : 0 ≤ t / W.g.deltaT
      · rw [Nat.floor_lt h0, div_lt_iff₀ hT]; exact ht
      · rw [Nat.floor_of_nonpos (not_le.1 h0).le]; exact hn
    beta_reduce
    rw [hlen l hl, if_pos hi, ensure_getD h hfl hT (hls l hl) hi, hst l hl, min_eq_left (by omega)]
  · refine C94_late h hfl (hls l hl) (Nat.le_floor ?_)
    rw [le_div_iff₀ hT]; exact ht

end

section
variable {W : CWorld} (h : CleanReach W) (hfl : W.g.fl = id) (hT : 0 < W.g.deltaT)
include h hfl hT

theorem C94_nonneg (hN : 0 ≤ W.g.deltaN) {l : ℕ} (hl : l < W.g.nLinks) (hp : ∀ x ∈ (W.link l).ttReal, 0 ≤ x) (i : ℕ) :
    0 ≤ W.extLink l i := by
  by_cases hi : i < W.g.totalSteps
  swap
  · rw [C94_late h.toReach hfl hl (by omega)]
  have hx : ExactCounts W.g := fun n => by rw [hfl]; rfl
  obtain ⟨⟨A, D, f⟩, _⟩ := h.flow hx
  obtain ⟨j, out, k, hij, h1, h2, ho, hk, hv⟩ := C94_value h.toReach hfl hT hl hp hi
  rw [hv]
  refine mul_nonneg (mul_nonneg (sub_nonneg.2 (by exact_mod_cast LastBelow_le hk)) hT.le) (sub_nonneg.2 ?_)
  by_cases hc : Congested W l i
  · have hcj := (h2 hc).1 j hij le_rfl
    have hlt : Cpp.Spec.leaves W l j < W.g.timestep := by
      by_contra hge
      obtain ⟨a, b⟩ := f.fut l (Cpp.Spec.leaves W l j) hl (by omega)
      have := hcj.2.2
      rw [a, b] at this
      exact lt_irrefl _ this
    have hjt : j < W.g.timestep := by unfold Cpp.Spec.leaves at hlt; omega
    rw [(f.past l i hl (by omega)).1, (f.past l j hl hjt).1]
    exact mul_le_mul_of_nonneg_right (by exact_mod_cast f.mono_le hl hij hjt) hN
  · rw [h1 hc]

end

section
variable {W W' : CWorld} (h : CleanReach W) {sched : ℕ → CWorld → Sched} (hs : ∀ t V, (sched t V).Valid V) {endTs : ℕ}
  (hr : W.mainLoop sched endTs = (W', none)) (hfl : W.g.fl = id) (hT : 0 < W.g.deltaT)
include h hs hr hfl hT

/-- **C94.** After a run: the vehicles charged for are those that entered the link after and while the congestion
lasted. -/
theorem C94_vehicles : ∃ p, History W W' p ∧ ∀ l i, l < W.g.nLinks → (∀ x ∈ (W'.link l).ttReal, 0 ≤ x) →
    W.g.timestep ≤ i → i < W.g.totalSteps → ∃ j out k : ℕ, i ≤ j ∧ (¬ Congested W' l i → j = i) ∧
      (Congested W' l i → (∀ s, i ≤ s → s ≤ j → Congested W' l s) ∧ ¬ Congested W' l (j + 1)) ∧
      out = min (Cpp.Spec.leaves W' l i + 1) (W.g.totalSteps - 1) ∧ LastBelow (W'.link l).dep out k ∧
      W'.extLink l i = ((out : ℚ) - k) * W.g.deltaT *
        (((into l p).filter (fun e => i < e.time ∧ e.time ≤ j)).length * W.g.deltaN) := by
  have hx : ExactCounts W.g := fun n => by rw [hfl]; rfl
  obtain ⟨p, r⟩ := main_hist hs h.toReach.rest hr
  obtain ⟨⟨A0, D0, f0⟩, _⟩ := h.flow hx
  have hg := r.keep.2.1
  have e1 := CGlob.fix_totalSteps hg
  have e2 := CGlob.fix_deltaT hg
  have e3 := CGlob.fix_nLinks hg
  have hfl' : W'.g.fl = id := by rw [CGlob.fix_fl hg]; exact hfl
  have h' : CleanReach W' := CleanReach.step h (CleanStep.run _ _ _ _ hs hr)
  obtain ⟨⟨A, D, f⟩, _⟩ := h'.flow (fun n => by rw [hfl']; rfl)
  refine ⟨p, r.history, fun l i hl hp hi1 hi2 => ?_⟩
  obtain ⟨j, out, k, hij, h1, h2, ho, hk, hv⟩ := C94_value h'.toReach hfl' (by rw [e2]; exact hT)
    (by rw [e3]; exact hl) hp (by rw [e1]; exact hi2)
  rw [e1] at ho
  refine ⟨j, out, k, hij, h1, h2, ho, hk, ?_⟩
  rw [hv, e2]
  congr 1
  by_cases hc : Congested W' l i
  · have hcj := (h2 hc).1 j hij le_rfl
    have hlt : Cpp.Spec.leaves W' l j < W'.g.timestep := by
      by_contra hge
      obtain ⟨a, b⟩ := f.fut l (Cpp.Spec.leaves W' l j) (by rw [e3]; exact hl) (by omega)
      have := hcj.2.2
      rw [a, b] at this
      exact lt_irrefl _ this
    have hjt : j < W'.g.timestep := by unfold Cpp.Spec.leaves at hlt; omega
    have hcv := r.curves hl hx (f0.whole hl)
    rw [(hcv j (by omega) hjt).1, (hcv i hi1 (by omega)).1, length_filter_between Pass.time hij]
    push_cast
    ring
  · rw [h1 hc, sub_self, List.filter_eq_nil_iff.2 (fun e _ => by simp)]
    simp

end

/-! ## Concrete case -/

namespace Cpp

/-- The network of `cppTwo0` with five vehicles. -/
def cppFive0 : CWorld :=
  let W0 := CWorld.empty id 200 5 1 10 (1/2) 0 true false false false true 1
  let W1 := (((W0.addNodeWith (0, 0) [0] 0 (-1) 0 (fun _ => 0)).addNodeWith (0, 0) [0] 0 (-1) 0
    (fun _ => 0))).addNodeWith (0, 0) [0] 0 (-1) 0 (fun _ => 0)
  let W2 := (W1.addLink 0 1 (cppTwoArgs 2)).addLink 1 2 (cppTwoArgs 1)
  (((((W2.addVehicle 0 0 2 []).addVehicle 0 0 2 []).addVehicle 5 0 2 []).addVehicle 5 0 2 []).addVehicle 10 0 2
    []).initAdj

def cppFive (k : ℕ) : CWorld := (cppFive0.mainLoop (fun _ W => W.seqSched) k).1

theorem cppFive0_clean : CleanReach cppFive0 := by
  refine CleanReach.step ?_ (CleanStep.init _)
  refine CleanReach.step ?_ (CleanStep.vehicle _ 10 0 2 [] (by decide) (by decide))
  refine CleanReach.step ?_ (CleanStep.vehicle _ 5 0 2 [] (by decide) (by decide))
  refine CleanReach.step ?_ (CleanStep.vehicle _ 5 0 2 [] (by decide) (by decide))
  refine CleanReach.step ?_ (CleanStep.vehicle _ 0 0 2 [] (by decide) (by decide))
  refine CleanReach.step ?_ (CleanStep.vehicle _ 0 0 2 [] (by decide) (by decide))
  refine CleanReach.step ?_ (CleanStep.link _ 1 2 (cppTwoArgs 1) (by decide) (by decide) (by decide) (by decide))
  refine CleanReach.step ?_ (CleanStep.link _ 0 1 (cppTwoArgs 2) (by decide) (by decide) (by decide) (by decide))
  refine CleanReach.step ?_ (CleanStep.node _ _ [0] 0 (-1) 0 (fun _ => 0) 1 rfl)
  refine CleanReach.step ?_ (CleanStep.node _ _ [0] 0 (-1) 0 (fun _ => 0) 1 rfl)
  refine CleanReach.step ?_ (CleanStep.node _ _ [0] 0 (-1) 0 (fun _ => 0) 1 rfl)
  exact CleanReach.empty id 200 5 1 10 (1/2) 0 true false false false true 1

theorem cppFive_run : cppFive0.mainLoop (fun _ W => W.seqSched) 16 = (cppFive 16, none) :=
  Prod.ext rfl (by decide +kernel)

theorem cppFive_clean : CleanReach (cppFive 16) :=
  CleanReach.step cppFive0_clean (CleanStep.run _ _ _ _ seqSched_valid cppFive_run)

theorem cppFive_fl : (cppFive 16).g.fl = id := by
  obtain ⟨_, r⟩ := main_hist seqSched_valid cppFive0_clean.toReach.rest cppFive_run
  exact CGlob.fix_fl r.keep.2.1

end Cpp

/-- A vehicle that enters link 0 in time step 1 leaves it in time step 5, when the others wait for the narrow link. Those
that entered in time step 2 count, the last one does not: when it leaves nobody is behind it. -/
theorem C94_case : CleanReach (cppFive 16) ∧ (cppFive 16).g.fl = id ∧ 0 < (cppFive 16).g.deltaT ∧
    0 ≤ (cppFive 16).g.deltaN ∧ 0 < (cppFive 16).g.totalSteps ∧
    (∀ l ∈ [0, 1], 0 ≤ ((cppFive 16).link l).len / ((cppFive 16).link l).vmax ∧
      ∀ x ∈ ((cppFive 16).link l).ttReal, 0 ≤ x) ∧
    Congested (cppFive 16) 0 1 ∧ Congested (cppFive 16) 0 2 ∧ ¬ Congested (cppFive 16) 0 3 ∧
    (cppFive 16).extLink 0 1 = 50 ∧ (cppFive 16).extLink 0 2 = 0 ∧ (cppFive 16).costDso [0, 1] 5 = 115 ∧
    ((cppFive 16).routeTime [0, 1] 5 0).1 = 40 ∧ (cppFive 16).extRoute [0, 1] 5 0 = 75 := by
  refine ⟨cppFive_clean, cppFive_fl, by decide +kernel, by decide +kernel, by decide +kernel, by decide +kernel, ?_, ?_, ?_,
    by decide +kernel, by decide +kernel, by decide +kernel, by decide +kernel, by decide +kernel⟩ <;>
  · unfold Congested; decide +kernel

/-- **C94.** "A vehicle in a queue with others behind it is charged something" is false: those that enter in time step 2
are not charged for the one that enters in time step 3, which waits too but leaves nobody behind. -/
theorem C94_behind_false : ¬ ∀ (W : CWorld) (l i : ℕ), CleanReach W → W.g.fl = id → 0 < W.g.deltaT → 0 < W.g.deltaN →
    l < W.g.nLinks → Congested W l i → (W.link l).arr i < (W.link l).arr (i + 1) →
    (W.link l).len / (W.link l).vmax * (101 / 100) < recordAt W l (i + 1) → 0 < W.extLink l i := by
  intro h
  have := h (cppFive 16) 0 2 cppFive_clean cppFive_fl (by decide +kernel) (by decide +kernel) (by decide +kernel)
    C94_case.2.2.2.2.2.2.2.1 (by decide +kernel) (by decide +kernel)
  rw [C94_case.2.2.2.2.2.2.2.2.2.2.1] at this
  exact lt_irrefl _ this

end UX
