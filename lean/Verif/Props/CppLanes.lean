import Verif.Proofs.CppLanes
import Verif.Props.CppDta

/-!
# C97: lanes of the C++ engine
-/

namespace UX
open Cpp Cpp.Spec Cpp.CWorld

/-- **C97.** The vehicles of a link take its lanes in turn. -/
theorem C97_turns {W : CWorld} (h : CReach W) (l : ℕ) :
    Turns (W.link l).lanes (W.link l).vehs (fun v => (W.veh v).lane) := h.turned l

namespace Cpp

theorem Spec.Turns.nth {k : ℕ} {q : List ℕ} {f : ℕ → ℕ} (h : Turns k q f) {i j u w : ℕ} (hu : q[i]? = some u)
    (hw : q[i + j]? = some w) : f w = (f u + j) % k := by
  induction j generalizing w with
  | zero =>
    rw [Nat.add_zero, hu] at hw
    cases hw
    rw [Nat.add_zero, Nat.mod_eq_of_lt (h.range u (List.mem_of_getElem? hu))]
  | succ j ih =>
    have hlt := (List.getElem?_eq_some_iff.1 hw).1
    have hv := List.getElem?_eq_getElem (show i + j < q.length by omega)
    rw [h.next (i + j) _ w hv hw, ih hv]
    rw [Nat.mod_add_mod, Nat.add_assoc]

theorem lane_ne {k a j : ℕ} (hj : 0 < j) (hk : j < k) : (a + j) % k ≠ a % k := by
  intro h
  have h1 := Nat.sub_mod_eq_zero_of_mod_eq h
  rw [Nat.add_sub_cancel_left, Nat.mod_eq_of_lt hk] at h1
  omega

end Cpp

/-- **C97.** So the leader of a vehicle is the nearest vehicle ahead of it in its own lane, and its follower
the nearest one behind it. -/
theorem C97_leader {W : CWorld} (h : CReach W) {l j w : ℕ} (hw : (W.link l).vehs[j]? = some w) :
    (W.veh w).leader = firstIn (fun v => (W.veh v).lane) (W.veh w).lane ((W.link l).vehs.take j).reverse ∧
    (W.veh w).follower = firstIn (fun v => (W.veh v).lane) (W.veh w).lane ((W.link l).vehs.drop (j + 1)) := by
  have t := h.turned l
  have i := h.rest.inv
  have hln := (i.mem l w (List.mem_of_getElem? hw)).2.2.1
  have hk := (i.ends l hln).2.2
  obtain ⟨hl, hf⟩ := i.linked l hln j w hw
  beta_reduce at hl hf
  rw [hl, hf]
  generalize hq : (W.link l).vehs = q at *
  generalize hkk : (W.link l).lanes = k at *
  have hj := (List.getElem?_eq_some_iff.1 hw).1
  have hmod : ∀ v ∈ q, (W.veh v).lane % k = (W.veh v).lane := fun v hv => Nat.mod_eq_of_lt (t.range v hv)
  constructor
  · have hget : ∀ p (hp : p < (q.take j).reverse.length), q[j - 1 - p]? = some ((q.take j).reverse[p]) := by
      intro p hp
      have hp' := hp
      rw [List.length_reverse, List.length_take] at hp'
      have hlen : (q.take j).length = min j q.length := List.length_take
      rw [List.getElem_reverse, List.getElem_take, ← List.getElem?_eq_getElem]
      congr 1
      omega
    have hlen : (q.take j).reverse.length = j := by
      rw [List.length_reverse, List.length_take]; omega
    generalize (q.take j).reverse = P at *
    have hne : ∀ p (hp : p < P.length), p + 1 < k →
        ((W.veh (P[p])).lane) ≠ (W.veh w).lane := by
      intro p hp hpk e
      have h1 := t.nth (hget p hp) (j := p + 1) (w := w) (by
        rw [show j - 1 - p + (p + 1) = j by omega]; exact hw)
      have h2 := hmod _ (List.mem_of_getElem? (hget p hp))
      have := lane_ne (a := (W.veh (P[p])).lane) (Nat.succ_pos p) hpk
      exact this (by rw [← h1, h2, e])
    unfold firstIn
    split
    · rename_i hle
      have hpl : k - 1 < P.length := by omega
      have hg := hget (k - 1) hpl
      rw [show j - 1 - (k - 1) = j - k by omega] at hg
      rw [hg, eq_comm, List.find?_eq_some_iff_getElem]
      refine ⟨?_, k - 1, hpl, rfl, fun p hp => ?_⟩
      · have h1 := t.nth hg (j := k) (w := w) (by rw [show j - k + k = j by omega]; exact hw)
        rw [Nat.add_mod_right, hmod _ (List.mem_of_getElem? hg)] at h1
        simp [h1]
      · have := hne p (by omega) (by omega)
        simp [this]
    · rename_i hlt
      rw [eq_comm, List.find?_eq_none]
      intro x hx
      obtain ⟨p, hp, rfl⟩ := List.mem_iff_getElem.1 hx
      have := hne p hp (by omega)
      simp [this]
  · have hget : ∀ p (hp : p < (q.drop (j + 1)).length), q[j + (p + 1)]? = some ((q.drop (j + 1))[p]) := by
      intro p hp
      rw [List.getElem_drop, ← List.getElem?_eq_getElem]
      congr 1
      omega
    have hlen : (q.drop (j + 1)).length = q.length - (j + 1) := List.length_drop
    generalize q.drop (j + 1) = P at *
    have hne : ∀ p (hp : p < P.length), p + 1 < k →
        ((W.veh (P[p])).lane) ≠ (W.veh w).lane := by
      intro p hp hpk e
      have h1 := t.nth hw (hget p hp)
      have := lane_ne (a := (W.veh w).lane) (Nat.succ_pos p) hpk
      exact this (by rw [← h1, e, hmod _ (List.mem_of_getElem? hw)])
    unfold firstIn
    by_cases hlt : j + k < q.length
    · have hpl : k - 1 < P.length := by omega
      have hg := hget (k - 1) hpl
      rw [show j + (k - 1 + 1) = j + k by omega] at hg
      rw [hg, eq_comm, List.find?_eq_some_iff_getElem]
      refine ⟨?_, k - 1, hpl, rfl, fun p hp => ?_⟩
      · have h1 := t.nth hw hg
        rw [Nat.add_mod_right, hmod _ (List.mem_of_getElem? hw)] at h1
        simp [h1]
      · have := hne p (by omega) (by omega)
        simp [this]
    · rw [List.getElem?_eq_none (by omega), eq_comm, List.find?_eq_none]
      intro x hx
      obtain ⟨p, hp, rfl⟩ := List.mem_iff_getElem.1 hx
      have := hne p hp (by omega)
      simp [this]

namespace Cpp

/-- Vehicles that take `k` lanes in turn, the first one in lane `c`. -/
theorem count_turns {k : ℕ} (f : ℕ → ℕ) {a : ℕ} (ha : a < k) (q : List ℕ) (c : ℕ) (hc : c < k)
    (h : ∀ i u, q[i]? = some u → f u = (c + i) % k) :
    inLane f a q = (q.length + k - 1 - (a + k - c) % k) / k := by
  induction q generalizing c with
  | nil =>
    have : (a + k - c) % k < k := Nat.mod_lt _ (by omega)
    show 0 = _
    rw [eq_comm, Nat.div_eq_zero_iff]
    right
    simp only [List.length_nil]
    omega
  | cons v t ih =>
    have h0 : f v = c := by
      have := h 0 v (by simp)
      rw [Nat.add_zero, Nat.mod_eq_of_lt hc] at this; exact this
    have ht := ih ((c + 1) % k) (Nat.mod_lt _ (by omega)) (fun i u hu => by
      have := h (i + 1) u (by simpa using hu)
      rw [this, Nat.mod_add_mod]; congr 1; omega)
    have hd : (a + k - c) % k = if c ≤ a then a - c else a + k - c := by
      split
      · rename_i hle
        rw [show a + k - c = a - c + k by omega, Nat.add_mod_right, Nat.mod_eq_of_lt (by omega)]
      · rw [Nat.mod_eq_of_lt (by omega)]
    have hd' : (a + k - (c + 1) % k) % k = if c + 1 = k then a else if c + 1 ≤ a then a - (c + 1) else a + k - (c + 1) := by
      split
      · rename_i e
        rw [e, Nat.mod_self, Nat.sub_zero, Nat.add_mod_right, Nat.mod_eq_of_lt ha]
      · rename_i e
        rw [Nat.mod_eq_of_lt (show c + 1 < k by omega)]
        split
        · rename_i hle
          rw [show a + k - (c + 1) = a - (c + 1) + k by omega, Nat.add_mod_right, Nat.mod_eq_of_lt (by omega)]
        · rw [Nat.mod_eq_of_lt (by omega)]
    unfold inLane at ht ⊢
    rw [List.filter_cons, h0, List.length_cons, hd]
    rw [hd'] at ht
    by_cases e : c = a
    · subst e
      rw [if_pos (by simp), List.length_cons, ht, if_pos le_rfl, Nat.sub_self, Nat.sub_zero]
      rw [show t.length + 1 + k - 1 = t.length + k by omega, Nat.add_div_right _ (by omega)]
      congr 2
      split
      · omega
      · rw [if_neg (by omega)]; omega
    · rw [if_neg (by simp [e]), ht]
      congr 1
      split
      · rw [if_neg (by omega)]; omega
      · by_cases hle : c ≤ a
        · rw [if_pos hle, if_pos (by omega)]; omega
        · rw [if_neg hle, if_neg (by omega)]; omega

end Cpp

/-- **C97.** Every lane of a link holds its share of the vehicles, rounded up or down. -/
theorem C97_balance {W : CWorld} (h : CReach W) {l k : ℕ} (hk : k < (W.link l).lanes) :
    (W.link l).vehs.length / (W.link l).lanes ≤ inLane (fun v => (W.veh v).lane) k (W.link l).vehs ∧
    inLane (fun v => (W.veh v).lane) k (W.link l).vehs ≤
      ((W.link l).vehs.length + (W.link l).lanes - 1) / (W.link l).lanes := by
  have t := h.turned l
  generalize hq : (W.link l).vehs = q at *
  generalize (W.link l).lanes = n at *
  cases q with
  | nil => exact ⟨by simp, by simp [inLane]⟩
  | cons v r =>
    have hc := t.range v (by simp)
    have := count_turns (fun v => (W.veh v).lane) hk (v :: r) (W.veh v).lane hc (fun i u hu => by
      have := t.nth (i := 0) (j := i) (u := v) (w := u) (by simp) (by rw [Nat.zero_add]; exact hu)
      exact this)
    rw [this]
    have hm : (k + n - (W.veh v).lane) % n < n := Nat.mod_lt _ (by omega)
    constructor
    · exact Nat.div_le_div_right (by omega)
    · exact Nat.div_le_div_right (by omega)

/-- **C97.** A vehicle never changes its lane while it stays on a link: as long as it enters no further link
the lane is the same. -/
theorem C97_keep {W : CWorld} (h : CReach W) {sched : ℕ → CWorld → Sched} (hs : ∀ t V, (sched t V).Valid V) (endTs v : ℕ)
    (hc : ((mainLoop sched W endTs).1.veh v).count = (W.veh v).count) :
    ((mainLoop sched W endTs).1.veh v).lane = (W.veh v).lane :=
  ((mainLoop_evs h.rest (fun t V _ => (hs t V).2.2.2.1.nodup_iff.2 List.nodup_range) endTs).lane v).2 hc

/-- **C97.** The log of a vehicle names a lane of the link it names, or neither. -/
theorem C97_log {W : CWorld} (h : CReach W) {v : ℕ} {e : CLog} (he : e ∈ (W.veh v).log) :
    e.link = none ∧ e.lane = -1 ∨
      ∃ l, l < W.g.nLinks ∧ e.link = some l ∧ 0 ≤ e.lane ∧ e.lane < (W.link l).lanes := h.laneLog v e he

/-! ## Concrete case -/

namespace Cpp

/-- A link of three lanes leads to one of one lane; five vehicles start at once. -/
def cppWide0 : CWorld :=
  let W0 := CWorld.empty id 200 5 1 10 (1/2) 0 true false false false true 1
  let W1 := (((W0.addNodeWith (0, 0) [0] 0 (-1) 0 (fun _ => 0)).addNodeWith (0, 0) [0] 0 (-1) 0
    (fun _ => 0))).addNodeWith (0, 0) [0] 0 (-1) 0 (fun _ => 0)
  let W2 := (W1.addLink 0 1 (cppTwoArgs 3)).addLink 1 2 (cppTwoArgs 1)
  (((((W2.addVehicle 0 0 2 []).addVehicle 0 0 2 []).addVehicle 0 0 2 []).addVehicle 0 0 2 []).addVehicle 0 0 2 []).initAdj

def cppWide (k : ℕ) : CWorld := (cppWide0.mainLoop (fun _ W => W.seqSched) k).1

theorem cppWide0_clean : CleanReach cppWide0 := by
  refine CleanReach.step ?_ (CleanStep.init _)
  refine CleanReach.step ?_ (CleanStep.vehicle _ 0 0 2 [] (by decide) (by decide))
  refine CleanReach.step ?_ (CleanStep.vehicle _ 0 0 2 [] (by decide) (by decide))
  refine CleanReach.step ?_ (CleanStep.vehicle _ 0 0 2 [] (by decide) (by decide))
  refine CleanReach.step ?_ (CleanStep.vehicle _ 0 0 2 [] (by decide) (by decide))
  refine CleanReach.step ?_ (CleanStep.vehicle _ 0 0 2 [] (by decide) (by decide))
  refine CleanReach.step ?_ (CleanStep.link _ 1 2 (cppTwoArgs 1) (by decide) (by decide) (by decide) (by decide))
  refine CleanReach.step ?_ (CleanStep.link _ 0 1 (cppTwoArgs 3) (by decide) (by decide) (by decide) (by decide))
  refine CleanReach.step ?_ (CleanStep.node _ _ [0] 0 (-1) 0 (fun _ => 0) 1 rfl)
  refine CleanReach.step ?_ (CleanStep.node _ _ [0] 0 (-1) 0 (fun _ => 0) 1 rfl)
  refine CleanReach.step ?_ (CleanStep.node _ _ [0] 0 (-1) 0 (fun _ => 0) 1 rfl)
  exact CleanReach.empty id 200 5 1 10 (1/2) 0 true false false false true 1

theorem cppWide_run (k : ℕ) (h : (cppWide0.mainLoop (fun _ W => W.seqSched) k).2 = none) :
    cppWide0.mainLoop (fun _ W => W.seqSched) k = (cppWide k, none) := Prod.ext rfl h

theorem cppWide_reach {k : ℕ} (h : (cppWide0.mainLoop (fun _ W => W.seqSched) k).2 = none) : CReach (cppWide k) :=
  (CleanReach.step cppWide0_clean (CleanStep.run _ _ _ _ seqSched_valid (cppWide_run k h))).toReach

end Cpp

/-- Five vehicles on three lanes: vehicle 3 follows vehicle 0, vehicle 4 follows vehicle 1. Once vehicles 0
and 1 have left, vehicle 2 is at the front, in lane 2, and vehicles 3 and 4 still are in lanes 0 and 1. -/
theorem C97_case : CReach (cppWide 3) ∧ CReach (cppWide 6) ∧ ((cppWide 3).link 0).lanes = 3 ∧
    ((cppWide 3).link 0).vehs = [0, 1, 2, 3, 4] ∧
    ((cppWide 3).link 0).vehs.map (fun v => ((cppWide 3).veh v).lane) = [0, 1, 2, 0, 1] ∧
    ((cppWide 3).veh 3).leader = some 0 ∧ ((cppWide 3).veh 1).follower = some 4 ∧
    ((cppWide 3).veh 2).follower = none ∧
    ((cppWide 6).link 0).vehs = [2, 3, 4] ∧
    ((cppWide 6).link 0).vehs.map (fun v => ((cppWide 6).veh v).lane) = [2, 0, 1] ∧
    ((cppWide 6).veh 3).count = ((cppWide 3).veh 3).count ∧
    ((cppWide 9).veh 3).log.map CLog.lane = [-1, -1, 0, 0, 0, 0, 0, 0, 0] :=
  ⟨cppWide_reach (by decide +kernel), cppWide_reach (by decide +kernel), by decide +kernel, by decide +kernel,
    by decide +kernel, by decide +kernel, by decide +kernel, by decide +kernel, by decide +kernel,
    by decide +kernel, by decide +kernel, by decide +kernel⟩

end UX
