import Verif.Proofs.CppKinReach
import Verif.Props.CppTrace

/-!
# C87, C88: positions, spacing and car following in the C++ engine
-/

namespace UX
open Cpp Cpp.Spec Cpp.CWorld

/-- **C87.** In every world that arises by careful calls all vehicles on a link are between its ends, and
each is at least the jam spacing behind the one that is as many places ahead as the link has lanes. -/
theorem C87_spacing {W : CWorld} (h : SteadyReach W) (ok : FlOK W.g.fl) (hn : 0 ≤ W.g.deltaN) {l : ℕ}
    (hl : l < W.g.nLinks) : Inside W l ∧ Spaced W l :=
  have k := (h.kin ok hn).2 l hl
  ⟨k.pos, k.sp⟩

/-- **C87.** Hence a link never holds more vehicles than its lanes can store at jam spacing. -/
theorem C87_storage {W : CWorld} (h : SteadyReach W) (hfl : W.g.fl = id) (hn : 0 ≤ W.g.deltaN) {l : ℕ}
    (hl : l < W.g.nLinks) (hg : 0 < jamGap W l) :
    ((W.link l).vehs.length : ℚ) ≤ (W.link l).lanes * ((W.link l).len / jamGap W l + 1) := by
  have ok : FlOK W.g.fl := by rw [hfl]; exact ⟨monotone_id, rfl, fun _ => rfl⟩
  obtain ⟨p, k⟩ := h.kin ok hn
  refine queue_bound (h.toClean.toReach.rest.inv.ends l hl).2.2 hg (k l hl).pos ?_ (p.len l hl)
  intro i u v hu hv
  have := (k l hl).sp i u v hu hv
  rw [hfl] at this; exact this

/-- A completed run is a careful call. -/
theorem C87_run {W W' : CWorld} (h : SteadyReach W) (ok : FlOK W.g.fl) (hn : 0 ≤ W.g.deltaN)
    (hp : ∀ l, l < W.g.nLinks → 0 ≤ (W.link l).deltaLane) {sched : ℕ → CWorld → Sched}
    (hs : ∀ t V, (sched t V).Valid V) {endTs : ℕ} (hr : W.mainLoop sched endTs = (W', none)) :
    SteadyReach W' := by
  obtain ⟨p, r⟩ := main_hist hs h.toClean.toReach.rest hr
  obtain ⟨s, f, _⟩ := r.keep
  have e : ∀ l, (W'.link l).deltaLane = (W.link l).deltaLane := fun l => by
    have a := congrArg (fun L : CLink => L.deltaLane) (s.link l); exact a
  refine SteadyReach.step h (CleanStep.run _ _ _ _ hs hr) ⟨fun l hl => ?_, fun l _ => e l⟩
  rw [CGlob.fix_nLinks f] at hl
  rw [e l, s.len l]
  exact ⟨(h.kin ok hn).1.len l hl, hp l hl⟩

/-- **C88.** In one time step every vehicle that stays on its link moves as Newell's law says. -/
theorem C88_newell {W W' : CWorld} (h : SteadyReach W) (ok : FlOK W.g.fl) (hn : 0 ≤ W.g.deltaN)
    {sched : ℕ → CWorld → Sched} (hs : ∀ t V, (sched t V).Valid V) {endTs : ℕ}
    (hr : W.mainLoop sched endTs = (W', none)) (ht : W'.g.timestep = W.g.timestep + 1) {l v : ℕ}
    (hv : StaysOn W W' v l) : Follows W W' v l :=
  (main_kin hs h.toClean.toReach.rest hr (h.kin ok hn).1 (h.kin ok hn).2).2.2 ht l v hv

/-- **C88.** It does not move backwards, nor further than at free-flow speed, nor beyond the end. -/
theorem C88_range {W W' : CWorld} (h : SteadyReach W) (ok : FlOK W.g.fl) (hn : 0 ≤ W.g.deltaN)
    {sched : ℕ → CWorld → Sched} (hs : ∀ t V, (sched t V).Valid V) {endTs : ℕ}
    (hr : W.mainLoop sched endTs = (W', none)) (ht : W'.g.timestep = W.g.timestep + 1) {l v : ℕ}
    (hv : StaysOn W W' v l) :
    (W.veh v).x ≤ (W'.veh v).x ∧ (W'.veh v).x ≤ (W.link l).len ∧
    (W'.veh v).x ≤ max (W.veh v).x (W.g.fl ((W.veh v).x + W.g.fl ((W.link l).vmax * W.g.deltaT))) := by
  have hl := (h.toClean.toReach.rest.inv.mem l v hv.1).2.2.1
  have hx := ((C87_spacing h ok hn hl).1 v hv.1).2
  have key : ∀ a, (W'.veh v).x = newell W l (W.veh v).x a → (W.veh v).x ≤ (W'.veh v).x ∧
      (W'.veh v).x ≤ (W.link l).len ∧
      (W'.veh v).x ≤ max (W.veh v).x (W.g.fl ((W.veh v).x + W.g.fl ((W.link l).vmax * W.g.deltaT))) := by
    intro a ha
    rw [ha]
    refine ⟨le_min hx (le_max_left _ _), min_le_left _ _, (min_le_right _ _).trans ?_⟩
    cases a with
    | none => exact le_rfl
    | some y => exact max_le_max le_rfl (min_le_left _ _)
  obtain ⟨i, hi⟩ := List.mem_iff_getElem?.1 hv.1
  obtain ⟨f1, f2⟩ := C88_newell h ok hn hs hr ht hv i hi
  rcases lt_or_ge i (W.link l).lanes with c | c
  · exact key _ (f1 c)
  · have hlt : i < (W.link l).vehs.length := by
      by_contra hc
      rw [List.getElem?_eq_none (by omega)] at hi; simp at hi
    have hu : (W.link l).vehs[i - (W.link l).lanes]? = some _ :=
      List.getElem?_eq_getElem (show i - (W.link l).lanes < (W.link l).vehs.length by omega)
    rcases f2 _ c hu with e | e
    · exact key _ e
    · exact key _ e.1

/-! ## Concrete cases -/

namespace Cpp

theorem noVehs_empty {W : CWorld} (h : CReach W) (h0 : W.g.nVehs = 0) (l : ℕ) : (W.link l).vehs = [] := by
  rcases hq : (W.link l).vehs with _ | ⟨v, q⟩
  · rfl
  · have := (h.rest.inv.mem l v (by rw [hq]; simp)).2.2.2.1
    omega

theorem steady_node {W : CWorld} (h : SteadyReach W) {ints : List ℚ} {off cap : ℚ} {lanes : ℤ} {rng : ℕ → ℕ}
    {fuel : ℕ} {q : ℕ × ℚ} (hq : sigInit W.g.fl ints off fuel = some q)
    (hp : ∀ l, l < W.g.nLinks → 0 ≤ (W.link l).len ∧ 0 ≤ (W.link l).deltaLane) :
    SteadyReach (W.addNodeWith q ints off cap lanes rng) := by
  refine SteadyReach.step h (CleanStep.node _ _ ints off cap lanes rng fuel ?_) ⟨hp, fun _ _ => rfl⟩
  unfold CWorld.addNode
  rw [hq]; rfl

theorem steady_link {W : CWorld} (h : SteadyReach W) {s d : ℕ} {a : LinkArgs} (h0 : W.g.nVehs = 0)
    (hs : s < W.g.nNodes) (hd : d < W.g.nNodes) (hl : 1 ≤ a.lanes)
    (hp : ∀ l, l < (W.addLink s d a).g.nLinks → 0 ≤ ((W.addLink s d a).link l).len ∧
      0 ≤ ((W.addLink s d a).link l).deltaLane) : SteadyReach (W.addLink s d a) :=
  SteadyReach.step h (CleanStep.link _ s d a hs hd hl (fun v hv => by omega))
    ⟨hp, fun l hv => absurd (noVehs_empty h.toClean.toReach h0 l) hv⟩

theorem steady_vehicle {W : CWorld} (h : SteadyReach W) {dep : ℚ} {o d : ℕ} {p : List ℕ}
    (ho : o < W.g.nNodes) (hd : d < W.g.nNodes)
    (hp : ∀ l, l < W.g.nLinks → 0 ≤ (W.link l).len ∧ 0 ≤ (W.link l).deltaLane) :
    SteadyReach (W.addVehicle dep o d p) :=
  SteadyReach.step h (CleanStep.vehicle _ dep o d p ho hd) ⟨hp, fun _ _ => rfl⟩

theorem steady_init {W : CWorld} (h : SteadyReach W)
    (hp : ∀ l, l < W.g.nLinks → 0 ≤ (W.link l).len ∧ 0 ≤ (W.link l).deltaLane) : SteadyReach W.initAdj := by
  obtain ⟨_, a2, a3, _⟩ := initAdj_same W
  refine SteadyReach.step h (CleanStep.init _) ⟨fun l hl => ?_, fun l _ => by rw [a2]⟩
  rw [CGlob.fix_nLinks a3] at hl
  rw [a2]; exact hp l hl

theorem cppSig0_steady : SteadyReach cppSig0 := by
  unfold cppSig0
  have hid : sigInit id [10, 15] 0 3 = some (0, 0) := by decide +kernel
  have h0 : SteadyReach (CWorld.empty id 200 5 1 10 (1/2) 0 true false false false true 1) :=
    SteadyReach.empty id 200 5 1 10 (1/2) 0 true false false false true 1
  have h1 := steady_node (q := (0, 0)) h0 (ints := [0]) (off := 0) (cap := -1) (lanes := 0)
    (rng := fun _ => 0) (fuel := 1) rfl (by decide +kernel)
  have h2 := steady_node (q := (0, 0)) h1 (ints := [10, 15]) (off := 0) (cap := 3/4) (lanes := 0)
    (rng := fun _ => 0) (fuel := 3) hid (by decide +kernel)
  have h3 := steady_node (q := (0, 0)) h2 (ints := [0]) (off := 0) (cap := -1) (lanes := 0)
    (rng := fun _ => 0) (fuel := 1) rfl (by decide +kernel)
  refine steady_init ?_ (by decide +kernel)
  refine steady_vehicle ?_ (by decide +kernel) (by decide +kernel) (by decide +kernel)
  refine steady_vehicle ?_ (by decide +kernel) (by decide +kernel) (by decide +kernel)
  refine steady_vehicle ?_ (by decide +kernel) (by decide +kernel) (by decide +kernel)
  refine steady_vehicle ?_ (by decide +kernel) (by decide +kernel) (by decide +kernel)
  refine steady_vehicle ?_ (by decide +kernel) (by decide +kernel) (by decide +kernel)
  refine steady_link ?_ rfl (by decide +kernel) (by decide +kernel) (by decide +kernel) (by decide +kernel)
  refine steady_link ?_ rfl (by decide +kernel) (by decide +kernel) (by decide +kernel) (by decide +kernel)
  exact h3

theorem idOK : FlOK (id : ℚ → ℚ) := ⟨monotone_id, rfl, fun _ => rfl⟩

theorem cppSig_steady {k : ℕ} (h : (cppSig0.mainLoop (fun _ W => W.seqSched) k).2 = none) :
    SteadyReach (cppSig k) :=
  C87_run cppSig0_steady idOK (by decide +kernel) (by decide +kernel) seqSched_valid (cppSig_run h)

end Cpp

/-- Vehicles 2 and 3 queue before the red light, the second one exactly the jam spacing of 25 m behind
the first; the link of 300 m can store 13 platoons. -/
theorem C87_case : SteadyReach (cppSig 10) ∧ FlOK (cppSig 10).g.fl ∧ 0 ≤ (cppSig 10).g.deltaN ∧
    0 < (cppSig 10).g.nLinks ∧ jamGap (cppSig 10) 0 = 25 ∧ ((cppSig 10).link 0).vehs = [2, 3] ∧
    ((cppSig 10).veh 2).x = 300 ∧ ((cppSig 10).veh 3).x = 275 := by
  have e : (cppSig 10).g.fl = id := by
    obtain ⟨_, r⟩ := main_hist seqSched_valid cppSig0_clean.toReach.rest
      (cppSig_run (k := 10) (by decide +kernel))
    exact CGlob.fix_fl r.keep.2.1
  refine ⟨cppSig_steady (by decide +kernel), by rw [e]; exact idOK, by decide +kernel, by decide +kernel,
    by decide +kernel, by decide +kernel, by decide +kernel, by decide +kernel⟩

/-- In the time step before, vehicle 3 was held back by vehicle 2. -/
theorem C88_case : SteadyReach (cppSig 9) ∧
    ((cppSig 9).mainLoop (fun _ W => W.seqSched) 10).2 = none ∧
    StaysOn (cppSig 9) ((cppSig 9).mainLoop (fun _ W => W.seqSched) 10).1 3 0 ∧
    ((cppSig 9).veh 3).x = 200 ∧ newell (cppSig 9) 0 200 none = 300 ∧
    newell (cppSig 9) 0 200 (some ((cppSig 9).veh 2).x) = 275 ∧
    (((cppSig 9).mainLoop (fun _ W => W.seqSched) 10).1.veh 3).x = 275 := by
  exact ⟨cppSig_steady (by decide +kernel), by decide +kernel, by unfold StaysOn; decide +kernel,
    by decide +kernel, by decide +kernel, by decide +kernel, by decide +kernel⟩

/-- **C87.** Careful calls are needed: `change_jam_density` on a link with vehicles moves none of them, so
that they can be closer than the new spacing. -/
theorem C87_jam_false : ∃ W : CWorld, CleanReach W ∧ W.g.fl = id ∧ Inside W 0 ∧ ¬ Spaced W 0 := by
  have e : (cppSig 10).g.fl = id := by
    obtain ⟨_, r⟩ := main_hist seqSched_valid cppSig0_clean.toReach.rest
      (cppSig_run (k := 10) (by decide +kernel))
    exact CGlob.fix_fl r.keep.2.1
  refine ⟨(cppSig 10).edit (.jam 0 (1/10)), CleanReach.step ?_ (CleanStep.edit _ _), ?_, ?_, ?_⟩
  · exact CleanReach.step cppSig0_clean (CleanStep.run _ _ _ _ seqSched_valid (cppSig_run (by decide +kernel)))
  · rw [← e]; simp only [CWorld.edit, changeJam]; split <;> rfl
  · unfold Inside; decide +kernel
  · intro h
    have := h 0 2 3 (by decide +kernel) (by decide +kernel)
    revert this; decide +kernel

end UX
