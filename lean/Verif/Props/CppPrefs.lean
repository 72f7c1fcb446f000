import Verif.Proofs.CppPrefs
import Verif.Props.CppChoice

/-!
# C102: route preferences in the C++ engine
-/

namespace UX
open Cpp Cpp.Spec Cpp.CWorld

variable {W W' : CWorld}

/-- **C102.** If the update weight is in [0, 1], preferences are in [0, 1] in exact arithmetic. -/
theorem C102_range (h : CReach W) (hid : W.g.fl = id) (h0 : 0 ≤ updWeight W) (h1 : updWeight W ≤ 1) (k l : ℕ) :
    0 ≤ W.g.pref k l ∧ W.g.pref k l ≤ 1 ∧ (W.g.nLinks ≤ l → W.g.pref k l = 0) := by
  have p := h.pref hid h0 h1
  refine ⟨p.nonneg k l, ?_, p.zero k l⟩
  by_cases hl : l < W.g.nLinks
  · have := p.sum k (W.link l).src {l} (fun m hm => by rw [Finset.mem_singleton.1 hm]; exact ⟨hl, rfl⟩)
      (by simp)
    simpa using this
  · rw [p.zero k l (Nat.not_lt.1 hl)]; exact zero_le_one

/-- **C102.** The preferences, for one destination, of links from one node to different nodes add up to at
most 1. -/
theorem C102_sum (h : CReach W) (hid : W.g.fl = id) (h0 : 0 ≤ updWeight W) (h1 : updWeight W ≤ 1) (k n : ℕ)
    (s : Finset ℕ) (hs : ∀ l ∈ s, l < W.g.nLinks ∧ (W.link l).src = n)
    (hd : ∀ a ∈ s, ∀ b ∈ s, (W.link a).dst = (W.link b).dst → a = b) : ∑ l ∈ s, W.g.pref k l ≤ 1 :=
  (h.pref hid h0 h1).sum k n s hs (fun a ha b hb e => hd a ha b hb e)

/-- **C102.** The flag that the engine keeps per destination does what the sum of the preferences does in the
Python engine: the weight is 1 exactly as long as all of them are 0. -/
theorem C102_weight (h : CReach W) (hid : W.g.fl = id) (h0 : 0 ≤ updWeight W) (h1 : updWeight W ≤ 1) (k : ℕ) :
    (if W.g.active k = true then updWeight W else 1) = rowWeight W k := by
  have p := h.pref hid h0 h1
  unfold rowWeight
  by_cases hz : ∀ l, l < W.g.nLinks → W.g.pref k l = 0
  · rw [if_pos hz]
    split
    · rename_i ha
      rcases eq_or_lt_of_le h1 with e | e
      · exact e
      · obtain ⟨l, hl, hp⟩ := p.act e k ha
        exact absurd (hz l hl) (ne_of_gt hp)
    · rfl
  · rw [if_neg hz, if_pos]
    by_contra ha
    exact hz (fun l _ => p.idle k l (Bool.eq_false_iff.2 ha))

/-- **C102.** A time step that does not throw moves the preferences by that weight towards the shortest paths,
if an update is due (in gradual mode always, otherwise when a search is), and leaves them otherwise. -/
theorem C102_update (h : CReach W) (hid : W.g.fl = id) (h0 : 0 ≤ updWeight W) (h1 : updWeight W ≤ 1)
    {sched : ℕ → CWorld → Sched} (hs : ∀ t V, (sched t V).Valid V) (ht : W.g.timestep < W.g.totalSteps)
    (he : W.mainLoop sched (W.g.timestep + 1) = (W', none)) :
    (¬ UpdateDue W → W'.g.pref = W.g.pref) ∧ (¬ SearchDue W → W'.g.next = W.g.next) ∧
    (UpdateDue W → ∀ k l, k < W.g.nNodes → l < W.g.nLinks → W'.g.pref k l =
      (1 - rowWeight W k) * W.g.pref k l + if OnPath W' k l then rowWeight W k else 0) := by
  have r := mainLoop_routes h.rest hid (fun t V _ => (hs t V).2.2.2.1.nodup_iff.2 List.nodup_range) ht he
  refine ⟨r.stay, fun e => (r.keep e).1, fun hu k l hk hl => ?_⟩
  rw [← C102_weight h hid h0 h1 k]
  exact r.pref hu k l hk hl

/-- **C102.** After a search the tables hold least costs and first links of the graph of link costs. -/
theorem C102_tables (h : CReach W) (hid : W.g.fl = id) {sched : ℕ → CWorld → Sched}
    (hs : ∀ t V, (sched t V).Valid V) (ht : W.g.timestep < W.g.totalSteps) (hd : SearchDue W)
    (he : W.mainLoop sched (W.g.timestep + 1) = (W', none)) {i : ℕ} (hi : i < W.g.nNodes) (k : ℕ) :
    (∀ d, W'.g.dist i k = some d ↔ IsDist id W.g.nNodes W'.g.adj i k d) ∧
    (∀ d, k ≠ i → W'.g.dist i k = some d → ∃ j, W'.g.next i k = some j ∧ WalkVia id W.g.nNodes W'.g.adj i j k d) ∧
    (W'.g.dist i k = none → W'.g.next i k = none) := by
  have r := mainLoop_routes h.rest hid (fun t V _ => (hs t V).2.2.2.1.nodup_iff.2 List.nodup_range) ht he
  obtain ⟨e1, e2⟩ := r.search hd i
  rw [e1, e2]
  obtain ⟨a, b⟩ := C77_distance flOK_id W'.g.adj hi k
  obtain ⟨c, d, _⟩ := C77_next flOK_id W'.g.adj hi k
  exact ⟨a, fun x hne hx => c x hne ((a x).1 hx), fun hn => d (b.1 hn)⟩

/-- **C102.** After a search: from every node from which the destination can be reached, a link that leads
nearer to it has at least the update weight as preference; if the weight is above 1/2, every link to another
node has less. -/
theorem C102_path (h : CReach W) (hid : W.g.fl = id) (h0 : 0 ≤ updWeight W) (h1 : updWeight W ≤ 1)
    {sched : ℕ → CWorld → Sched} (hs : ∀ t V, (sched t V).Valid V) (ht : W.g.timestep < W.g.totalSteps)
    (hd : SearchDue W) (he : W.mainLoop sched (W.g.timestep + 1) = (W', none)) {i k : ℕ} (hi : i < W.g.nNodes)
    (hk : k < W.g.nNodes) (hne : k ≠ i) {d : ℚ} (hr : W'.g.dist i k = some d) :
    ∃ l d', l < W.g.nLinks ∧ (W.link l).src = i ∧ W'.g.dist (W.link l).dst k = some d' ∧ d' < d ∧
      updWeight W ≤ W'.g.pref k l ∧
      (1 / 2 < updWeight W → ∀ c, c < W.g.nLinks → (W.link c).src = i → (W.link c).dst ≠ (W.link l).dst →
        W'.g.pref k c < W'.g.pref k l) := by
  have r := mainLoop_routes h.rest hid (fun t V _ => (hs t V).2.2.2.1.nodup_iff.2 List.nodup_range) ht he
  rw [(r.search hd i).2] at hr
  obtain ⟨j, w, d', j1, j2, j3, j4, j5, j6⟩ := C77_step W'.g.adj hi hne hr
  obtain ⟨l, l1, l2, l3⟩ := r.adj hd i j w j3 j4
  have hon : OnPath W' k l := by
    unfold OnPath
    rw [r.par.src, r.par.dst, l2, l3, (r.search hd i).1]
    exact j1
  have hp := (C102_update h hid h0 h1 hs ht he).2.2 (Or.inr hd) k l hk l1
  rw [if_pos hon] at hp
  have hw : updWeight W ≤ rowWeight W k ∧ rowWeight W k ≤ 1 := by
    unfold rowWeight; split
    · exact ⟨h1, le_rfl⟩
    · exact ⟨le_rfl, h1⟩
  have hge : updWeight W ≤ W'.g.pref k l := by
    have := mul_nonneg (sub_nonneg.2 hw.2) (C102_range h hid h0 h1 k l).1
    rw [hp]; linarith [hw.1]
  refine ⟨l, d', l1, l2, ?_, by linarith, hge, fun hhalf c c1 c2 c3 => ?_⟩
  · rw [l3, (r.search hd j).2]; exact j5
  · have hR : CReach W' := by
      have := CReach.step h (CStep.run W (W.g.timestep + 1) sched hs)
      rw [he] at this; exact this
    have hcl : c ≠ l := fun e => c3 (by rw [e])
    have hww := updWeight_fix r.fix
    have := C102_sum hR ((CGlob.fix_fl r.fix).trans hid) (by rw [hww]; exact h0) (by rw [hww]; exact h1) k i {c, l}
      (fun m hm => by
        rw [CGlob.fix_nLinks r.fix, r.par.src]
        rcases Finset.mem_insert.1 hm with rfl | hm
        · exact ⟨c1, c2⟩
        · rw [Finset.mem_singleton.1 hm]; exact ⟨l1, l2⟩)
      (fun a ha b hb e => by
        rw [r.par.dst, r.par.dst] at e
        simp only [Finset.mem_insert, Finset.mem_singleton] at ha hb
        rcases ha with rfl | rfl <;> rcases hb with rfl | rfl
        · rfl
        · exact absurd e c3
        · exact absurd e.symm c3
        · rfl)
    rw [Finset.sum_pair hcl] at this
    linarith

/-! ## Concrete cases -/

namespace Cpp

/-- Links 0 → 1, 1 → 0, 1 → 2, 0 → 2, updates every time step. -/
def cppPref0 (gradual : Bool) (duoTime : ℚ) : CWorld :=
  let W0 := CWorld.empty id 200 5 1 duoTime (3/4) 0 true gradual true false true 1
  let W1 := (((W0.addNodeWith (0, 0) [0] 0 (-1) 0 (fun _ => 0)).addNodeWith (0, 0) [0] 0 (-1) 0
    (fun _ => 0))).addNodeWith (0, 0) [0] 0 (-1) 0 (fun _ => 0)
  let W2 := (((W1.addLink 0 1 cppRowArgs).addLink 1 0 cppRowArgs).addLink 1 2 cppRowArgs).addLink 0 2 cppRowArgs
  W2.initAdj

theorem cppPref0_clean (gradual : Bool) (duoTime : ℚ) : CleanReach (cppPref0 gradual duoTime) := by
  refine CleanReach.step ?_ (CleanStep.init _)
  refine CleanReach.step ?_ (CleanStep.link _ 0 2 cppRowArgs (show 0 < 3 by decide) (show 2 < 3 by decide) (by decide)
    (fun v hv => absurd hv (Nat.not_lt_zero v)))
  refine CleanReach.step ?_ (CleanStep.link _ 1 2 cppRowArgs (show 1 < 3 by decide) (show 2 < 3 by decide) (by decide)
    (fun v hv => absurd hv (Nat.not_lt_zero v)))
  refine CleanReach.step ?_ (CleanStep.link _ 1 0 cppRowArgs (show 1 < 3 by decide) (show 0 < 3 by decide) (by decide)
    (fun v hv => absurd hv (Nat.not_lt_zero v)))
  refine CleanReach.step ?_ (CleanStep.link _ 0 1 cppRowArgs (show 0 < 3 by decide) (show 1 < 3 by decide) (by decide)
    (fun v hv => absurd hv (Nat.not_lt_zero v)))
  refine CleanReach.step ?_ (CleanStep.node _ _ [0] 0 (-1) 0 (fun _ => 0) 1 rfl)
  refine CleanReach.step ?_ (CleanStep.node _ _ [0] 0 (-1) 0 (fun _ => 0) 1 rfl)
  refine CleanReach.step ?_ (CleanStep.node _ _ [0] 0 (-1) 0 (fun _ => 0) 1 rfl)
  exact CleanReach.empty id 200 5 1 duoTime (3/4) 0 true gradual true false true 1

/-- After one time step the direct link is closed; another time step follows. -/
def cppPref (gradual : Bool) (duoTime : ℚ) : CWorld :=
  ((((cppPref0 gradual duoTime).mainLoop (fun _ W => W.seqSched) 1).1.edit (.capIn 3 0)).mainLoop
    (fun _ W => W.seqSched) 2).1

theorem cppPref_clean {gradual : Bool} {duoTime : ℚ}
    (h1 : ((cppPref0 gradual duoTime).mainLoop (fun _ W => W.seqSched) 1).2 = none)
    (h2 : ((((cppPref0 gradual duoTime).mainLoop (fun _ W => W.seqSched) 1).1.edit (.capIn 3 0)).mainLoop
      (fun _ W => W.seqSched) 2).2 = none) : CleanReach (cppPref gradual duoTime) := by
  refine CleanReach.step ?_ (CleanStep.run _ _ _ _ seqSched_valid (Prod.ext rfl h2))
  refine CleanReach.step ?_ (CleanStep.edit _ (.capIn 3 0))
  exact CleanReach.step (cppPref0_clean gradual duoTime) (CleanStep.run _ _ _ _ seqSched_valid (Prod.ext rfl h1))

/-- Before the second time step. -/
def cppPref1 : CWorld := ((cppPref0 false 5).mainLoop (fun _ W => W.seqSched) 1).1.edit (.capIn 3 0)

end Cpp

/-- The direct link had preference 1; when it is closed, the way round gets the weight 3/4. -/
theorem C102_case : CReach cppPref1 ∧ cppPref1.g.fl = id ∧ updWeight cppPref1 = 3 / 4 ∧ SearchDue cppPref1 ∧
    cppPref1.g.timestep < cppPref1.g.totalSteps ∧ cppPref1.g.pref 2 3 = 1 ∧
    cppPref1.mainLoop (fun _ W => W.seqSched) (cppPref1.g.timestep + 1) = (cppPref false 5, none) ∧
    (cppPref false 5).g.dist 0 2 = some 25 ∧ (cppPref false 5).g.pref 2 0 = 3 / 4 ∧
    (cppPref false 5).g.pref 2 3 = 1 / 4 := by
  have e : cppPref1.g.timestep = 1 := by decide +kernel
  refine ⟨?_, ?_, by decide +kernel, ⟨by decide +kernel, by decide +kernel⟩, by decide +kernel, by decide +kernel,
    ?_, by decide +kernel, by decide +kernel, by decide +kernel⟩
  · exact CReach.step (CReach.step (cppPref0_clean false 5).toReach (CStep.run _ 1 _ seqSched_valid))
      (CStep.edit _ (.capIn 3 0))
  · have := (mainLoop_evs (cppPref0_clean false 5).toReach.rest
      (fun t V _ => (seqSched_valid t V).2.2.2.1.nodup_iff.2 List.nodup_range) 1).lift
      (P := fun X => X.g.fl = id) (fun _ _ e h => (CGlob.fix_fl e.fix).trans h) rfl
    unfold cppPref1
    rw [edit_g]; exact this
  · rw [e]
    exact Prod.ext rfl (show (cppPref1.mainLoop (fun _ W => W.seqSched) 2).2 = none by decide +kernel)

/-- In gradual mode with `duo_update_time` shorter than a time step the weight can be above 1, and preferences
leave [0, 1] on both sides. -/
theorem C102_gradual_false :
    (¬ ∀ (W : CWorld) (k l : ℕ), CleanReach W → W.g.fl = id → 0 ≤ W.g.duoWeight → W.g.duoWeight ≤ 1 →
      0 < W.g.duoTime → 0 ≤ W.g.pref k l) ∧
    ¬ ∀ (W : CWorld) (k l : ℕ), CleanReach W → W.g.fl = id → 0 ≤ W.g.duoWeight → W.g.duoWeight ≤ 1 →
      0 < W.g.duoTime → W.g.pref k l ≤ 1 := by
  have hc : CleanReach (cppPref true 2) := cppPref_clean (by decide +kernel) (by decide +kernel)
  have hid : (cppPref true 2).g.fl = id := by
    have hv : ∀ t V, Rest V → ((fun (_ : ℕ) (W : CWorld) => W.seqSched) t V).run.Nodup :=
      fun t V _ => (seqSched_valid t V).2.2.2.1.nodup_iff.2 List.nodup_range
    have h1 := (mainLoop_evs (cppPref0_clean true 2).toReach.rest hv 1).lift
      (P := fun X => X.g.fl = id) (fun _ _ e h => (CGlob.fix_fl e.fix).trans h) rfl
    have hr : CReach (((cppPref0 true 2).mainLoop (fun _ W => W.seqSched) 1).1.edit (.capIn 3 0)) :=
      CReach.step (CReach.step (cppPref0_clean true 2).toReach (CStep.run _ 1 _ seqSched_valid))
        (CStep.edit _ (.capIn 3 0))
    exact (mainLoop_evs hr.rest hv 2).lift (P := fun X => X.g.fl = id)
      (fun _ _ e h => (CGlob.fix_fl e.fix).trans h) (by rw [edit_g]; exact h1)
  refine ⟨fun h => ?_, fun h => ?_⟩
  · have := h (cppPref true 2) 2 3 hc hid (by decide +kernel) (by decide +kernel) (by decide +kernel)
    exact absurd this (by decide +kernel)
  · have := h (cppPref true 2) 2 0 hc hid (by decide +kernel) (by decide +kernel) (by decide +kernel)
    exact absurd this (by decide +kernel)

end UX
