import Verif.Proofs.Life
import Verif.Props.Demo

/-! C01, C04, C25, C26: where vehicles are, queue order, names. -/

namespace UX
open World

/-! ### C01 -/

/-- Specification: the place of vehicle `v` agrees with its state. -/
def Located (W : World) (v : VehId) : Prop :=
  match W.V.state v with
  | .wait => (W.N.genq (W.V.orig v)).count v = 1 ∧ (∀ n, n ≠ W.V.orig v → v ∉ W.N.genq n) ∧
      (∀ l, v ∉ W.L.vehs l) ∧ W.V.link v = none
  | .run => ∃ l, l < W.nLinks ∧ W.V.link v = some l ∧ (W.L.vehs l).count v = 1 ∧
      (∀ k, k ≠ l → v ∉ W.L.vehs k) ∧ ∀ n, v ∉ W.N.genq n
  | _ => (∀ l, v ∉ W.L.vehs l) ∧ (∀ n, v ∉ W.N.genq n) ∧ W.V.link v = none

/-- C01: every vehicle is exactly where its state says, once. -/
theorem C01_located {W : World} (h : Reachable Any W) (v : VehId) : Located W v := by
  have hs := h.inv.s
  have hq := hs.genq_mem
  have hl := hs.vehs_link
  have hr := hs.link_run
  have hno : W.V.state v ≠ .run → W.V.link v = none := by
    intro h1
    cases h2 : W.V.link v with
    | none => rfl
    | some l => exact absurd (hr v l h2).1 h1
  unfold Located
  split
  · rename_i hw
    refine ⟨List.count_eq_one_of_mem (hs.genq_nodup _) (hs.wait_genq v hw), ?_, ?_, hno (by simp [hw])⟩
    · intro n hn hm; exact hn (hq n v hm).2.symm
    · intro l hm
      have := (hr v l (hl l v hm)).1
      rw [hw] at this; cases this
  · rename_i hw
    cases h2 : W.V.link v with
    | none => exact absurd h2 (hs.run_link v hw)
    | some l =>
      obtain ⟨-, h3, h4⟩ := hr v l h2
      refine ⟨l, h4, rfl, List.count_eq_one_of_mem (hs.vehs_nodup l) h3, ?_, ?_⟩
      · intro k hk hm
        have := hl k v hm
        rw [h2] at this; exact hk (Option.some.inj this).symm
      · intro n hm
        have := (hq n v hm).1
        rw [hw] at this; cases this
  · rename_i h1 h2
    refine ⟨?_, ?_, hno (by simpa using h2)⟩
    · intro l hm
      exact h2 (hr v l (hl l v hm)).1
    · intro n hm
      exact h1 (hq n v hm).1

/-- C01: the dictionaries of living and running vehicles hold exactly the right vehicles, once each. -/
theorem C01_lists {W : World} (h : Reachable Any W) :
    (∀ v, v ∈ W.living ↔ v < W.nVeh ∧ (W.V.state v = .home ∨ W.V.state v = .wait ∨ W.V.state v = .run)) ∧
    (∀ v, v ∈ W.running ↔ v < W.nVeh ∧ W.V.state v = .run) ∧ W.living.Nodup ∧ W.running.Nodup := by
  have hs := h.inv.s
  refine ⟨fun v => ?_, fun v => ?_, hs.living_nodup, hs.running_nodup⟩
  · rw [hs.living_iff]
    cases W.V.state v <;> simp
  · rw [hs.running_iff]
    refine ⟨fun h => ⟨?_, h⟩, fun h => h.2⟩
    by_contra hlt
    rw [hs.fresh v (Nat.le_of_not_lt hlt)] at h
    cases h

/-- C01: queues and links contain only vehicles of the world. -/
theorem C01_no_strangers {W : World} (h : Reachable Any W) (v : VehId)
    (hv : (∃ n, v ∈ W.N.genq n) ∨ ∃ l, v ∈ W.L.vehs l) : v < W.nVeh := by
  have hs := h.inv.s
  by_contra hlt
  have hf := hs.fresh v (Nat.le_of_not_lt hlt)
  rcases hv with ⟨n, hm⟩ | ⟨l, hm⟩
  · have := (hs.genq_mem n v hm).1; rw [hf] at this; cases this
  · have := (hs.link_run v l (hs.vehs_link l v hm)).1; rw [hf] at this; cases this

/-! ### C04 -/

/-- C04: the vehicles that entered a link, in order, are those that left it, in the same order,
followed by those now on it. -/
theorem C04_fifo {W : World} (h : Reachable Any W) (l : LinkId) :
    history (enters l) W.trace = history (leaves l) W.trace ++ W.L.vehs l :=
  (TInv.reach h).fifo l

/-! ### C26 -/

/-- C26: vehicles leave the generation queue of a node in the order in which they joined it. -/
theorem C26_queue_order {W : World} (h : Reachable Any W) (n : NodeId) :
    history (joins n) W.trace = history (quits n) W.trace ++ W.N.genq n :=
  (TInv.reach h).fifoQ n

/-- C26: nobody enters the network before (or in) its departure time step, and only at its origin. -/
theorem C26_not_early {W : World} (h : Reachable Any W) {T v n l}
    (he : Event.depart T v n l ∈ W.trace) :
    v < W.nVeh ∧ W.V.depTime v < T ∧ W.V.orig v = n ∧ T < W.T + 1 :=
  have hE := EInv.reach h
  ⟨(hE.ev_dep _ _ _ _ he).1, (hE.ev_dep _ _ _ _ he).2.1, (hE.ev_dep _ _ _ _ he).2.2, hE.at_le _ he⟩

/-- C26: nobody joins the queue before its departure time. -/
theorem C26_queue_not_early {W : World} (h : Reachable Any W) {T v n}
    (he : Event.queue T v n ∈ W.trace) : W.V.depTime v ≤ T ∧ W.V.orig v = n :=
  ((EInv.reach h).ev_queue _ _ _ he).2

/-! ### Witnesses for C01, C04, C26: a scenario with vehicles at home, waiting, running and ended. -/

set_option maxRecDepth 100000 in
/-- After 6 steps all five states but `abort` occur, and vehicles have passed node 1 and left. -/
theorem demo2_states : obs (runCmds demoCfg (fun _ => 0) (demo2 6)) (fun W =>
    decide (W.V.state 0 = .ended ∧ W.V.state 1 = .run ∧ W.V.state 4 = .wait ∧ W.V.state 5 = .home ∧
      W.L.vehs 0 = [2, 3] ∧
      history (enters 1) W.trace = [0, 1] ∧ history (quits 0) W.trace = [0, 1, 2, 3])) = true := by
  decide +kernel

/-- The hypotheses of C01, C04 and C26 are met by a world with vehicles in all these places. -/
example : ∃ W, Reachable Any W ∧ W.V.state 0 = .ended ∧ W.V.state 1 = .run ∧ W.V.state 4 = .wait ∧
    W.V.state 5 = .home := by
  obtain ⟨W, h1, h2⟩ := obs_ok demo2_states
  simp only [decide_eq_true_eq] at h2
  exact ⟨W, runCmds_reachable h1, h2.1, h2.2.1, h2.2.2.1, h2.2.2.2.1⟩

/-! ### C25 -/

/-- C25: names are unique. -/
theorem C25_distinct {W : World} (h : Reachable Any W) :
    (∀ i j, i < W.nNodes → j < W.nNodes → W.N.name i = W.N.name j → i = j) ∧
    (∀ i j, i < W.nLinks → j < W.nLinks → W.L.name i = W.L.name j → i = j) ∧
    (∀ i j, i < W.nVeh → j < W.nVeh → W.V.name i = W.V.name j → i = j) := by
  have hn := h.inv.n
  refine ⟨fun i j hi hj e => ?_, fun i j hi hj e => ?_, fun i j hi hj e => ?_⟩
  · have h1 := (hn.node _ i).mpr ⟨hi, rfl⟩
    have h2 := (hn.node _ j).mpr ⟨hj, e.symm⟩
    rw [h1] at h2; exact Option.some.inj h2
  · have h1 := (hn.link _ i).mpr ⟨hi, rfl⟩
    have h2 := (hn.link _ j).mpr ⟨hj, e.symm⟩
    rw [h1] at h2; exact Option.some.inj h2
  · have h1 := (hn.veh _ i).mpr ⟨hi, rfl⟩
    have h2 := (hn.veh _ j).mpr ⟨hj, e.symm⟩
    rw [h1] at h2; exact Option.some.inj h2

/-- C25: lookup by name returns the object with that name; an unknown name raises. -/
theorem C25_lookup {W : World} (h : Reachable Any W) (s : String) :
    (∀ i, W.getNode (.name s) = .ok i ↔ i < W.nNodes ∧ W.N.name i = s) ∧
    (∀ i, W.getLink (.name s) = .ok i ↔ i < W.nLinks ∧ W.L.name i = s) ∧
    (∀ i, W.vehDict s = some i ↔ i < W.nVeh ∧ W.V.name i = s) := by
  have hn := h.inv.n
  refine ⟨fun i => ?_, fun i => ?_, hn.veh s⟩
  · rw [← hn.node]; unfold getNode
    dsimp only
    cases W.nodeDict s <;> simp
  · rw [← hn.link]; unfold getLink
    dsimp only
    cases W.linkDict s <;> simp

/-- C25: adding a node, link or vehicle under a used name raises. -/
theorem C25_used_name {W : World} (h : Reachable Any W) :
    (∀ fuel a i, i < W.nNodes → W.N.name i = a.name → ∀ W', W.addNode fuel a ≠ .ok W') ∧
    (∀ a s i, a.name = some s → i < W.nLinks → W.L.name i = s → ∀ W', W.addLink a ≠ .ok W') ∧
    (∀ a s i, a.name = some s → i < W.nVeh → W.V.name i = s → ∀ W', W.addVehicle a ≠ .ok W') := by
  have hn := h.inv.n
  refine ⟨?_, ?_, ?_⟩
  · intro fuel a i hi he W' ha
    obtain ⟨_, _, _, _, h1, _⟩ := addNode_ok ha
    rw [(hn.node _ i).mpr ⟨hi, he⟩] at h1
    simp at h1
  · intro a s i hs hi he W' ha
    obtain ⟨_, _, nm, _, _, _, _, _, _, h1, h2, _⟩ := addLink_ok ha
    rw [hs] at h1
    simp only [Option.getD] at h1
    subst h1
    rw [(hn.link _ i).mpr ⟨hi, he⟩] at h2
    simp at h2
  · intro a s i hs hi he W' ha
    obtain ⟨_, _, _, _, _, _, _, nm, _, _, _, _, _, _, h1, h2, _⟩ := addVehicle_ok ha
    rw [hs] at h1
    simp only [Option.getD] at h1
    subst h1
    rw [(hn.veh _ i).mpr ⟨hi, he⟩] at h2
    simp at h2

/-- C25: identifiers are given out in order of creation, and existing names do not change. -/
theorem C25_ids {W W' : World} :
    (∀ fuel a, W.addNode fuel a = .ok W' → W'.nNodes = W.nNodes + 1 ∧ W'.N.name W.nNodes = a.name ∧
      ∀ i < W.nNodes, W'.N.name i = W.N.name i) ∧
    (∀ a, W.addLink a = .ok W' → W'.nLinks = W.nLinks + 1 ∧
      (∀ s, a.name = some s → W'.L.name W.nLinks = s) ∧
      ∀ i < W.nLinks, W'.L.name i = W.L.name i) ∧
    (∀ a, W.addVehicle a = .ok W' → W'.nVeh = W.nVeh + 1 ∧
      (∀ s, a.name = some s → W'.V.name W.nVeh = s) ∧
      ∀ i < W.nVeh, W'.V.name i = W.V.name i) := by
  refine ⟨?_, ?_, ?_⟩
  · intro fuel a ha
    obtain ⟨_, _, _, _, _, rfl⟩ := addNode_ok ha
    refine ⟨rfl, by simp [addNodeRes], fun i hi => ?_⟩
    simp [addNodeRes, upd_apply, Nat.ne_of_lt hi]
  · intro a ha
    obtain ⟨s, e, nm, k, p, -, -, -, -, hnm, -, rfl⟩ := addLink_ok ha
    refine ⟨rfl, fun t ht => ?_, fun i hi => ?_⟩
    · rw [ht] at hnm; simp [addLinkRes, hnm]
    · simp [addLinkRes, upd_apply, Nat.ne_of_lt hi]
  · intro a ha
    obtain ⟨o, d, dep, pref, cache, lp, la, nm, -, -, -, -, -, -, hnm, -, rfl⟩ := addVehicle_ok ha
    refine ⟨rfl, fun t ht => ?_, fun i hi => ?_⟩
    · rw [ht] at hnm; simp [addVehRes, hnm]
    · simp [addVehRes, upd_apply, Nat.ne_of_lt hi]

set_option maxRecDepth 10000 in
/-- Non-vacuity of `C25_used_name`: a second node "a" is refused in a world that has one. -/
example : obs (runCmds demoCfg (fun _ => 0) [.node { name := "a" }]) (fun W =>
    decide (W.nNodes = 1 ∧ W.N.name 0 = "a") &&
    (match W.addNode 100 { name := "a" } with | .ok _ => false | .error e => decide (e = .valueError)))
    = true := by decide +kernel

end UX
